import Verif.Proofs.Batch
import Verif.Props.Tokenizer
/-
C23: batch calls (src/tokenizer.rs:102-123, 178-187) under every schedule.
-/
namespace Tokengeex
open Spec ScoreOps Tokenizer Batch

variable {F : Type}

/-- **C23** `encode_batch`: `Ok` holds, in input order, a result of `encode` for every element; `Err` is an error of
`encode` on one of the elements. -/
theorem C23_encode_batch [ScoreOps F] (norm : UnicodeForm → Str → Str) (t : Tokenizer F) (inputs : List Str) (dropout : F)
    (r : Res (List (List TokenID))) (h : t.EncodeBatch norm inputs dropout r) :
    (∃ vs, r = .ok vs ∧ vs.length = inputs.length ∧
      ∀ (i : Nat) s v, inputs[i]? = some s → vs[i]? = some v → ∃ rnd, t.encode norm s dropout rnd = .ok v) ∨
    (∃ e, r = .error e ∧ ∃ s ∈ inputs, ∃ rnd, t.encode norm s dropout rnd = .error e) := by
  rcases outcome_cases h with ⟨vs, h1, h2, h3⟩ | ⟨e, i, h1, _, s, rnd, h2, h3, _⟩
  · refine .inl ⟨vs, h1, h2, ?_⟩
    intro i s v hi hv
    obtain ⟨s', rnd, h4, h5, _⟩ := h3 i v hv
    rw [hi] at h4
    simp only [Option.some.injEq] at h4
    subst h4
    exact ⟨rnd, h5⟩
  · exact .inr ⟨e, h1, s, List.mem_of_getElem? h2, rnd, h3⟩

/-- **C23** `encode_ordinary_batch`. -/
theorem C23_encode_ordinary_batch [ScoreOps F] (norm : UnicodeForm → Str → Str) (t : Tokenizer F) (inputs : List Str)
    (dropout : F) (r : Res (List (List TokenID))) (h : t.EncodeOrdinaryBatch norm inputs dropout r) :
    (∃ vs, r = .ok vs ∧ vs.length = inputs.length ∧
      ∀ (i : Nat) s v, inputs[i]? = some s → vs[i]? = some v → ∃ rnd, t.encodeOrdinary norm s dropout rnd = .ok v) ∨
    (∃ e, r = .error e ∧ ∃ s ∈ inputs, ∃ rnd, t.encodeOrdinary norm s dropout rnd = .error e) := by
  rcases outcome_cases h with ⟨vs, h1, h2, h3⟩ | ⟨e, i, h1, _, s, rnd, h2, h3⟩
  · refine .inl ⟨vs, h1, h2, ?_⟩
    intro i s v hi hv
    obtain ⟨s', rnd, h4, h5⟩ := h3 i v hv
    rw [hi] at h4
    simp only [Option.some.injEq] at h4
    subst h4
    exact ⟨rnd, h5⟩
  · exact .inr ⟨e, h1, s, List.mem_of_getElem? h2, rnd, h3⟩

/-- **C23** `decode_batch`: the result is the element-wise result whenever that is `Ok`, and otherwise the error of one
of the elements. -/
theorem C23_decode_batch (t : Tokenizer F) (inputs : List (List TokenID)) (flag : Bool) (r : Res (List Str))
    (h : t.DecodeBatch inputs flag r) :
    (∀ vs, inputs.map (fun ids => t.decode ids flag) = vs.map .ok → r = .ok vs) ∧
    ((¬ ∃ vs : List Str, inputs.map (fun ids => t.decode ids flag) = vs.map .ok) →
      ∃ e, r = .error e ∧ ∃ ids ∈ inputs, t.decode ids flag = .error e) := by
  have hc := outcome_cases h
  constructor
  · intro vs hvs
    rcases hc with ⟨ws, h1, h2, h3⟩ | ⟨e, i, h1, _, ids, h2, h3⟩
    · rw [h1]
      have hlen : vs.length = inputs.length := by
        have := congrArg List.length hvs; simpa using this.symm
      have : ws = vs := by
        apply List.ext_getElem (by omega)
        intro i hi hi'
        obtain ⟨ids, h4, h5⟩ := h3 i _ (List.getElem?_eq_getElem hi)
        have h6 := congrArg (fun l => l[i]?) hvs
        simp only [List.getElem?_map, h4, Option.map_some, List.getElem?_eq_getElem hi', Option.some.injEq] at h6
        rw [h5] at h6
        simpa using h6
      rw [this]
    · exfalso
      have h6 := congrArg (fun l => l[i]?) hvs
      simp only [List.getElem?_map, h2, Option.map_some, h3] at h6
      cases hv : vs[i]? with
      | none => rw [hv] at h6; simp at h6
      | some v => rw [hv] at h6; simp at h6
  · intro hno
    rcases hc with ⟨ws, h1, h2, h3⟩ | ⟨e, i, h1, _, ids, h2, h3⟩
    · exfalso
      apply hno
      refine ⟨ws, ?_⟩
      apply List.ext_getElem (by simp [h2])
      intro i hi hi'
      simp only [List.length_map] at hi hi'
      obtain ⟨ids, h4, h5⟩ := h3 i _ (List.getElem?_eq_getElem hi')
      rw [List.getElem?_eq_getElem hi] at h4
      simp only [Option.some.injEq] at h4
      simp [h4, h5]
    · exact ⟨e, h1, ids, List.mem_of_getElem? h2, h3⟩

/-- **C23** A batch in which every element is certain to succeed (fail) succeeds (fails), whatever the schedule and the
draws. -/
theorem C23_encode_batch_forced [ScoreOps F] (norm : UnicodeForm → Str → Str) (t : Tokenizer F) (inputs : List Str)
    (dropout : F) (r : Res (List (List TokenID))) (h : t.EncodeBatch norm inputs dropout r) :
    ((∀ s ∈ inputs, ∀ rnd, ∃ v, t.encode norm s dropout rnd = .ok v) → ∃ vs, r = .ok vs) ∧
    ((∃ s ∈ inputs, ∀ rnd, ∃ e, t.encode norm s dropout rnd = .error e) → ∃ e, r = .error e) := by
  rcases C23_encode_batch norm t inputs dropout r h with ⟨vs, h1, h2, h3⟩ | ⟨e, h1, s, hs, rnd, h2⟩
  · refine ⟨fun _ => ⟨vs, h1⟩, ?_⟩
    rintro ⟨s, hs, hall⟩
    exfalso
    obtain ⟨i, hi, rfl⟩ := List.getElem_of_mem hs
    obtain ⟨rnd, hr⟩ := h3 i _ _ (List.getElem?_eq_getElem hi) (List.getElem?_eq_getElem (by omega))
    obtain ⟨e, he⟩ := hall rnd
    rw [hr] at he; simp at he
  · refine ⟨?_, fun _ => ⟨e, h1⟩⟩
    intro hall
    obtain ⟨v, hv⟩ := hall s hs rnd
    rw [h2] at hv; simp at hv

theorem steps_bounded {β : Type} {R : Nat → Res β → Prop} {n : Nat} {run : Nat → State β} {k : Nat} (h0 : run 0 = State.init n)
    (h : ∀ j, j < k → Step R (run j) (run (j + 1))) : k ≤ 4 * n := by
  have key : ∀ j, j ≤ k → (run j).work + j ≤ (run 0).work := by
    intro j
    induction j with
    | zero => intro _; exact Nat.le_refl _
    | succ j ih =>
      intro hj
      have h1 := ih (by omega)
      have h2 := work_decreases (h j (by omega))
      omega
  have h1 := key k (Nat.le_refl _)
  have h2 : (State.init n : State β).work = 4 * n := by
    unfold State.work State.init
    rw [List.map_replicate]
    clear h0 h key h1
    induction n with
    | zero => rfl
    | succ n ih => rw [List.replicate_succ, List.sum_cons, ih]; simp only [weight]; omega
  rw [h0, h2] at h1
  omega

/-- **C23** No schedule deadlocks or runs forever: no run has more than four steps per element, in every reachable state
that is not final some step is possible, and the batch can be completed (shown here for `decode_batch`). -/
theorem C23_batch_terminates (t : Tokenizer F) (inputs : List (List TokenID)) (flag : Bool) :
    let R := fun (i : Nat) (x : Res Str) => ∃ ids, inputs[i]? = some ids ∧ t.decode ids flag = x
    (∀ (run : Nat → State _) (k : Nat), run 0 = State.init inputs.length → (∀ j, j < k → Step R (run j) (run (j + 1))) →
      k ≤ 4 * inputs.length) ∧
    (∀ s, Steps R (State.init inputs.length) s → (s.Final ∨ ∃ s', Step R s s') ∧ ∃ s', Steps R s s' ∧ s'.Final) := by
  intro R
  refine ⟨fun _ _ => steps_bounded, ?_⟩
  intro s hs
  have hR : ∀ i, i < inputs.length → ∃ r, R i r := fun i hi => ⟨_, inputs[i], List.getElem?_eq_getElem hi, rfl⟩
  have hi := inv_steps (inv_init (R := R) (n := inputs.length)) hs
  refine ⟨?_, finishes hR hi⟩
  by_cases hf : s.Final
  · exact .inl hf
  · exact .inr (progress hi hR hf)

/-- **C23** The same for `encode_batch` and `encode_ordinary_batch`, whatever the random numbers, unless the empty string is a
special token. -/
theorem C23_encode_batch_terminates [ScoreOps F] (norm : UnicodeForm → Str → Str) (vocab : List (ScoredToken F))
    (ps : List Processor) (specials : List Str) (ops : List (Op F)) (hne : [] ∉ givenSpecial specials ops) (inputs : List Str)
    (dropout : F) (rnd : Nat → F) (ordinary : Bool) :
    let t := build vocab ps specials ops
    let call := fun s (rnd : Nat → F) => if ordinary then t.encodeOrdinary norm s dropout rnd else t.encode norm s dropout rnd
    let R := fun (i : Nat) (x : Res (List TokenID)) => ∃ s rnd, inputs[i]? = some s ∧ call s rnd = x ∧ x ≠ .error .diverge
    (∀ (run : Nat → State _) (k : Nat), run 0 = State.init inputs.length → (∀ j, j < k → Step R (run j) (run (j + 1))) →
      k ≤ 4 * inputs.length) ∧
    (∀ s, Steps R (State.init inputs.length) s → (s.Final ∨ ∃ s', Step R s s') ∧ ∃ s', Steps R s s' ∧ s'.Final) := by
  intro t call R
  refine ⟨fun _ _ => steps_bounded, ?_⟩
  intro s hs
  have hR : ∀ i, i < inputs.length → ∃ r, R i r := by
    intro i hi
    refine ⟨_, inputs[i], rnd, List.getElem?_eq_getElem hi, rfl, ?_⟩
    show (if ordinary then t.encodeOrdinary norm inputs[i] dropout rnd else t.encode norm inputs[i] dropout rnd) ≠ _
    by_cases ho : ordinary = true
    · rw [if_pos ho]
      have hm : t.model = Model.from_ t.model.vocab := (wf_build vocab ps specials ops).model
      unfold encodeOrdinary
      rw [hm]
      rcases C03_encode_outcomes t.model.vocab (t.preprocess norm inputs[i]) dropout rnd with ⟨ids, h⟩ | h <;> rw [h] <;> simp
    · rw [if_neg ho]
      exact (C17_terminates_partial norm vocab ps specials ops hne inputs[i] dropout rnd).1
  have hi := inv_steps (inv_init (R := R) (n := inputs.length)) hs
  refine ⟨?_, finishes hR hi⟩
  by_cases hf : s.Final
  · exact .inl hf
  · exact .inr (progress hi hR hf)

/-- A schedule exists (the hypotheses of the theorems above are met): every batch has at least one outcome. -/
theorem decode_batch_has_outcome (t : Tokenizer F) (inputs : List (List TokenID)) (flag : Bool) :
    ∃ r, t.DecodeBatch inputs flag r := by
  obtain ⟨s, h1, h2⟩ := finishes (β := Str) (R := fun i x => ∃ ids, inputs[i]? = some ids ∧ t.decode ids flag = x)
    (n := inputs.length) (fun i hi => ⟨_, inputs[i], List.getElem?_eq_getElem hi, rfl⟩) inv_init
  exact ⟨_, s, h1, h2, rfl⟩

theorem encode_ordinary_batch_has_outcome [ScoreOps F] (norm : UnicodeForm → Str → Str) (t : Tokenizer F) (inputs : List Str)
    (dropout : F) (rnd : Nat → F) : ∃ r, t.EncodeOrdinaryBatch norm inputs dropout r := by
  obtain ⟨s, h1, h2⟩ := finishes (β := List TokenID)
    (R := fun i x => ∃ s rnd, inputs[i]? = some s ∧ t.encodeOrdinary norm s dropout rnd = x)
    (n := inputs.length) (fun i hi => ⟨_, inputs[i], rnd, List.getElem?_eq_getElem hi, rfl⟩) inv_init
  exact ⟨_, s, h1, h2, rfl⟩

/-- Two failing elements: which error is returned does depend on the schedule. -/
example : (exTok.DecodeBatch [[8], [9]] true (.error (.outOfBounds 8))) ∧
    (exTok.DecodeBatch [[8], [9]] true (.error (.outOfBounds 9))) := by
  constructor
  · refine ⟨{ items := [.finished none, .skipped], lock := none, saved := some (.outOfBounds 8), full := true }, ?_, ?_, rfl⟩
    · refine .tail (.tail (.tail (.tail (.tail (.refl _) (.compute (i := 0) rfl ⟨_, rfl, rfl⟩))
        (.lock (i := 0) rfl rfl)) (.write (i := 0) rfl)) (.raise (i := 0) rfl)) (.skip (i := 1) rfl rfl)
    · intro x hx; simp at hx; rcases hx with rfl | rfl <;> simp
  · refine ⟨{ items := [.skipped, .finished none], lock := none, saved := some (.outOfBounds 9), full := true }, ?_, ?_, rfl⟩
    · refine .tail (.tail (.tail (.tail (.tail (.refl _) (.compute (i := 1) rfl ⟨_, rfl, rfl⟩))
        (.lock (i := 1) rfl rfl)) (.write (i := 1) rfl)) (.raise (i := 1) rfl)) (.skip (i := 0) rfl rfl)
    · intro x hx; simp at hx; rcases hx with rfl | rfl <;> simp

end Tokengeex

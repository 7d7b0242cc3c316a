import Verif.Model.Batch
/-
Invariant, progress and termination of the parallel `collect`.
-/
namespace Tokengeex.Batch
variable {β : Type} {R : Nat → Res β → Prop} {n : Nat}

/-- What is known about an element from its state. -/
def ItemOk (R : Nat → Res β → Prop) (i : Nat) (lock : Option Nat) (full : Bool) (pending : Prop) : Item β → Prop
  | .waiting => True
  | .computed r => R i r
  | .holding e => R i (.error e) ∧ lock = some i
  | .erred => pending
  | .finished (some v) => R i (.ok v)
  | .finished none => pending
  | .skipped => full = true

structure Inv (R : Nat → Res β → Prop) (n : Nat) (s : State β) : Prop where
  len : s.items.length = n
  items : ∀ i x, s.items[i]? = some x → ItemOk R i s.lock s.full (s.saved.isSome ∨ s.lock.isSome) x
  saved : ∀ e, s.saved = some e → ∃ i, i < n ∧ R i (.error e)
  lock : ∀ j, s.lock = some j → ∃ e, s.items[j]? = some (.holding e)
  full : s.full = true → s.saved.isSome ∨ s.lock.isSome

theorem inv_init : Inv R n (State.init n) where
  len := by simp [State.init]
  items := by
    intro i x h
    simp only [State.init, List.getElem?_replicate] at h
    split at h
    · simp only [Option.some.injEq] at h; subst h; trivial
    · simp at h
  saved := by simp [State.init]
  lock := by simp [State.init]
  full := by simp [State.init]

theorem get_set {l : List (Item β)} {i j : Nat} {x y : Item β} (h : (l.set i y)[j]? = some x) :
    (i = j ∧ x = y) ∨ (i ≠ j ∧ l[j]? = some x) := by
  rw [List.getElem?_set] at h
  split at h
  · rename_i e
    split at h
    · simp only [Option.some.injEq] at h; exact .inl ⟨e, h.symm⟩
    · simp at h
  · rename_i e; exact .inr ⟨e, h⟩

theorem get_set_ne {l : List (Item β)} {i j : Nat} {x y : Item β} (h : l[j]? = some x) (hne : i ≠ j) :
    (l.set i y)[j]? = some x := by
  rw [List.getElem?_set, if_neg hne, h]

theorem ItemOk.mono {i : Nat} {l : Option Nat} {f f' : Bool} {p p' : Prop} {x : Item β} (h : ItemOk R i l f p x)
    (hf : f = true → f' = true) (hp : p → p') : ItemOk R i l f' p' x := by
  cases x with
  | finished o => cases o <;> simp only [ItemOk] at h ⊢ <;> first | exact h | exact hp h
  | erred => exact hp h
  | skipped => exact hf h
  | _ => exact h

theorem inv_step {s t : State β} (h : Inv R n s) (st : Step R s t) : Inv R n t := by
  -- the element of an owned lock is not the one that moves, unless it is holding
  have hown : ∀ {i j : Nat} {x : Item β}, s.lock = some j → s.items[i]? = some x → (∀ e, x ≠ .holding e) → i ≠ j := by
    intro i j x hj hx hne e
    subst e
    obtain ⟨e, he⟩ := h.lock i hj
    rw [hx] at he
    simp only [Option.some.injEq] at he
    exact hne e he
  cases st with
  | @compute i r hi hr =>
    refine ⟨by simp [h.len], ?_, h.saved, ?_, h.full⟩
    · intro j x hx
      rcases get_set hx with ⟨rfl, rfl⟩ | ⟨_, hx⟩
      · exact hr
      · exact h.items j x hx
    · intro j hj
      obtain ⟨e, he⟩ := h.lock j hj
      exact ⟨e, get_set_ne he (hown hj hi (by simp))⟩
  | @skip i hi hf =>
    refine ⟨by simp [h.len], ?_, h.saved, ?_, h.full⟩
    · intro j x hx
      rcases get_set hx with ⟨rfl, rfl⟩ | ⟨_, hx⟩
      · exact hf
      · exact h.items j x hx
    · intro j hj
      obtain ⟨e, he⟩ := h.lock j hj
      exact ⟨e, get_set_ne he (hown hj hi (by simp))⟩
  | @keep i v hi =>
    refine ⟨by simp [h.len], ?_, h.saved, ?_, h.full⟩
    · intro j x hx
      rcases get_set hx with ⟨rfl, rfl⟩ | ⟨_, hx⟩
      · have := h.items i _ hi; exact this
      · exact h.items j x hx
    · intro j hj
      obtain ⟨e, he⟩ := h.lock j hj
      exact ⟨e, get_set_ne he (hown hj hi (by simp))⟩
  | @lock i e hi hl =>
    refine ⟨by simp [h.len], ?_, h.saved, ?_, ?_⟩
    · intro j x hx
      rcases get_set hx with ⟨rfl, rfl⟩ | ⟨hne, hx⟩
      · exact ⟨h.items i _ hi, rfl⟩
      · have hj := h.items j x hx
        cases x with
        | holding e' => have := hj.2; rw [hl] at this; simp at this
        | finished o => cases o with
          | none => exact .inr rfl
          | some v => exact hj
        | erred => exact .inr rfl
        | _ => exact hj
    · intro j hj
      simp only [Option.some.injEq] at hj
      subst hj
      exact ⟨e, by rw [List.getElem?_set, if_pos rfl, if_pos (List.getElem?_eq_some_iff.1 hi).1]⟩
    · intro _; exact .inr rfl
  | @lockBusy i j' e hi hl =>
    refine ⟨by simp [h.len], ?_, h.saved, ?_, h.full⟩
    · intro j x hx
      rcases get_set hx with ⟨rfl, rfl⟩ | ⟨_, hx⟩
      · exact .inr (by rw [hl]; rfl)
      · exact h.items j x hx
    · intro j hj
      obtain ⟨e, he⟩ := h.lock j hj
      exact ⟨e, get_set_ne he (hown hj hi (by simp))⟩
  | @write i e hi =>
    have hi' := h.items i _ hi
    refine ⟨by simp [h.len], ?_, ?_, by simp, by simp⟩
    · intro j x hx
      rcases get_set hx with ⟨rfl, rfl⟩ | ⟨hne, hx⟩
      · exact .inl rfl
      · have hj := h.items j x hx
        cases x with
        | holding e' =>
          have h1 := hj.2; rw [hi'.2] at h1
          simp only [Option.some.injEq] at h1
          exact absurd h1 hne
        | finished o => cases o with
          | none => exact .inl rfl
          | some v => exact hj
        | erred => exact .inl rfl
        | _ => exact hj
    · intro e' he'
      simp only [Option.some.injEq] at he'
      cases hs : s.saved with
      | none =>
        rw [hs] at he'
        simp only [Option.getD_none] at he'
        subst he'
        exact ⟨i, by rw [← h.len]; exact (List.getElem?_eq_some_iff.1 hi).1, hi'.1⟩
      | some e'' =>
        rw [hs] at he'
        simp only [Option.getD_some] at he'
        subst he'
        exact h.saved _ hs
  | @raise i hi =>
    refine ⟨by simp [h.len], ?_, h.saved, ?_, ?_⟩
    · intro j x hx
      rcases get_set hx with ⟨rfl, rfl⟩ | ⟨_, hx⟩
      · exact h.items i _ hi
      · exact (h.items j x hx).mono (fun _ => rfl) id
    · intro j hj
      obtain ⟨e, he⟩ := h.lock j hj
      exact ⟨e, get_set_ne he (hown hj hi (by simp))⟩
    · intro _; exact h.items i _ hi

theorem inv_steps {s t : State β} (h : Inv R n s) (st : Steps R s t) : Inv R n t := by
  induction st with
  | refl => exact h
  | tail _ st ih => exact inv_step ih st

theorem filterMap_length_of_forall {α γ : Type} (f : α → Option γ) (l : List α) (h : ∀ x ∈ l, (f x).isSome) :
    (l.filterMap f).length = l.length ∧ ∀ (i : Nat) (x : α) (v : γ), l[i]? = some x → f x = some v → (l.filterMap f)[i]? = some v := by
  induction l with
  | nil => simp
  | cons a l ih =>
    obtain ⟨v, hv⟩ := Option.isSome_iff_exists.1 (h a (by simp))
    obtain ⟨h1, h2⟩ := ih (fun x hx => h x (by simp [hx]))
    rw [List.filterMap_cons, hv]
    refine ⟨by simp [h1], ?_⟩
    intro i x w hx hw
    cases i with
    | zero =>
      simp only [List.getElem?_cons_zero, Option.some.injEq] at hx ⊢
      subst hx; rw [hv] at hw; simpa using hw
    | succ i =>
      simp only [List.getElem?_cons_succ] at hx ⊢
      exact h2 i x w hx hw

/-- In a final state without a saved error every element was consumed with a value. -/
theorem final_ok {s : State β} (h : Inv R n s) (hf : s.Final) (hs : s.saved = none) :
    ∃ vs : List β, s.result = .ok vs ∧ vs.length = n ∧ ∀ (i : Nat) (v : β), vs[i]? = some v → R i (.ok v) := by
  have hlock : s.lock = none := by
    cases hl : s.lock with
    | none => rfl
    | some j =>
      obtain ⟨e, he⟩ := h.lock j hl
      rcases hf _ (List.mem_of_getElem? he) with ⟨o, ho⟩ | ho <;> simp at ho
  have hall : ∀ (i : Nat) (x : Item β), s.items[i]? = some x → ∃ v, x = .finished (some v) ∧ R i (.ok v) := by
    intro i x hx
    have hi := h.items i x hx
    rcases hf x (List.mem_of_getElem? hx) with ⟨o, rfl⟩ | rfl
    · cases o with
      | none => simp [ItemOk, hs, hlock] at hi
      | some v => exact ⟨v, rfl, hi⟩
    · have := h.full hi
      simp [hs, hlock] at this
  have hall' : ∀ x ∈ s.items, x.value?.isSome := by
    intro x hx
    obtain ⟨i, hi, rfl⟩ := List.getElem_of_mem hx
    obtain ⟨v, hv, _⟩ := hall i _ (List.getElem?_eq_getElem hi)
    rw [hv]; rfl
  obtain ⟨h1, h2⟩ := filterMap_length_of_forall Item.value? s.items hall'
  refine ⟨_, by unfold State.result; rw [hs], by rw [h1, h.len], ?_⟩
  intro i v hv
  have hlt : i < s.items.length := by rw [← h1]; exact (List.getElem?_eq_some_iff.1 hv).1
  obtain ⟨w, hw, hr⟩ := hall i _ (List.getElem?_eq_getElem hlt)
  have := h2 i _ w (List.getElem?_eq_getElem hlt) (by rw [hw]; rfl)
  rw [hv] at this
  simp only [Option.some.injEq] at this
  subst this
  exact hr

/-- What a result of the batch can be. -/
theorem outcome_cases {r : Res (List β)} (h : Outcome R n r) :
    (∃ vs, r = .ok vs ∧ vs.length = n ∧ ∀ (i : Nat) (v : β), vs[i]? = some v → R i (.ok v)) ∨
    (∃ e i, r = .error e ∧ i < n ∧ R i (.error e)) := by
  obtain ⟨s, hs, hf, rfl⟩ := h
  have hi := inv_steps (inv_init (R := R) (n := n)) hs
  cases hsv : s.saved with
  | none =>
    obtain ⟨vs, h1, h2, h3⟩ := final_ok hi hf hsv
    exact .inl ⟨vs, h1, h2, h3⟩
  | some e =>
    obtain ⟨i, h1, h2⟩ := hi.saved e hsv
    exact .inr ⟨e, i, by unfold State.result; rw [hsv], h1, h2⟩

/-! ## Progress and termination -/

/-- No deadlock: while an element is unfinished some thread can move (if the closure returns on every element). -/
theorem progress {s : State β} (h : Inv R n s) (hR : ∀ i, i < n → ∃ r, R i r) (hf : ¬ s.Final) : ∃ t, Step R s t := by
  unfold State.Final at hf
  simp only [Classical.not_forall, not_or] at hf
  obtain ⟨x, hx, h1, h2⟩ := hf
  obtain ⟨i, hi, rfl⟩ := List.getElem_of_mem hx
  have hget := List.getElem?_eq_getElem hi
  cases hc : s.items[i] with
  | waiting =>
    obtain ⟨r, hr⟩ := hR i (by rw [← h.len]; exact hi)
    exact ⟨_, .compute (hget.trans (by rw [hc])) hr⟩
  | computed r =>
    cases r with
    | ok v => exact ⟨_, .keep (hget.trans (by rw [hc]))⟩
    | error e =>
      cases hl : s.lock with
      | none => exact ⟨_, .lock (hget.trans (by rw [hc])) hl⟩
      | some j => exact ⟨_, .lockBusy (hget.trans (by rw [hc])) hl⟩
  | holding e => exact ⟨_, .write (hget.trans (by rw [hc]))⟩
  | erred => exact ⟨_, .raise (hget.trans (by rw [hc]))⟩
  | finished o => exact absurd ⟨o, hc⟩ h1
  | skipped => exact absurd hc h2

/-- Remaining work of an element. -/
def weight : Item β → Nat
  | .waiting => 4
  | .computed _ => 3
  | .holding _ => 2
  | .erred => 1
  | .finished _ => 0
  | .skipped => 0

/-- Remaining work. -/
def State.work (s : State β) : Nat := (s.items.map weight).sum

theorem sum_set {l : List (Item β)} {i : Nat} {x y : Item β} (h : l[i]? = some x) (hw : weight y < weight x) :
    ((l.set i y).map weight).sum < (l.map weight).sum := by
  induction l generalizing i with
  | nil => simp at h
  | cons a l ih =>
    cases i with
    | zero =>
      simp only [List.getElem?_cons_zero, Option.some.injEq] at h
      subst h
      simp only [List.set_cons_zero, List.map_cons, List.sum_cons]; omega
    | succ i =>
      simp only [List.getElem?_cons_succ] at h
      have := ih h
      simp only [List.set_cons_succ, List.map_cons, List.sum_cons]; omega

/-- Every step reduces the remaining work, so every schedule ends. -/
theorem work_decreases {s t : State β} (st : Step R s t) : t.work < s.work := by
  cases st with
  | compute h _ => exact sum_set h (by simp [weight])
  | skip h _ => exact sum_set h (by simp [weight])
  | keep h => exact sum_set h (by simp [weight])
  | lock h _ => exact sum_set h (by simp [weight])
  | lockBusy h _ => exact sum_set h (by simp [weight])
  | write h => exact sum_set h (by simp [weight])
  | raise h => exact sum_set h (by simp [weight])

/-- From every reachable state the batch can run to the end. -/
theorem finishes (hR : ∀ i, i < n → ∃ r, R i r) {s : State β} (h : Inv R n s) : ∃ t, Steps R s t ∧ t.Final := by
  have key : ∀ (k : Nat) (s : State β), s.work ≤ k → Inv R n s → ∃ t, Steps R s t ∧ t.Final := by
    intro k
    induction k with
    | zero =>
      intro s hk h
      refine ⟨s, .refl s, ?_⟩
      by_cases hf : s.Final
      · exact hf
      · obtain ⟨t, ht⟩ := progress h hR hf
        have := work_decreases ht
        omega
    | succ k ih =>
      intro s hk h
      by_cases hf : s.Final
      · exact ⟨s, .refl s, hf⟩
      · obtain ⟨t, ht⟩ := progress h hR hf
        obtain ⟨u, hu, hfu⟩ := ih t (by have := work_decreases ht; omega) (inv_step h ht)
        have : Steps R s u := by
          clear hfu
          induction hu with
          | refl => exact .tail (.refl s) ht
          | tail _ st ih' => exact .tail ih' st
        exact ⟨u, this, hfu⟩
  exact key _ s (Nat.le_refl _) h

end Tokengeex.Batch

import Verif.Model.Tokenizer
import Verif.Spec.Split
/-
The special token splitter computes the unique split of Spec/Split.lean.
-/
namespace Tokengeex
open Spec

theorem matchAt_some {specials : List Str} {text t : Str} :
    matchAt specials text = some t → FirstMatch specials text t := by
  intro h
  unfold matchAt at h
  obtain ⟨h1, before, after, h2, h3⟩ := List.find?_eq_some_iff_append.1 h
  refine ⟨by simpa using h1, before, after, h2, ?_⟩
  intro u hu hp
  have := h3 u hu
  simp only [Bool.not_eq_true', ← Bool.not_eq_true] at this
  exact this (by simpa using hp)

theorem matchAt_none {specials : List Str} {text : Str} : matchAt specials text = none ↔ NoMatch specials text := by
  unfold matchAt NoMatch
  rw [List.find?_eq_none]
  simp

theorem Spec.FirstMatch.mem {specials : List Str} {text t : Str} (h : FirstMatch specials text t) : t ∈ specials := by
  obtain ⟨_, a, b, rfl, _⟩ := h
  simp

theorem Spec.FirstMatch.unique {specials : List Str} {text t u : Str} (h : FirstMatch specials text t)
    (h' : FirstMatch specials text u) : t = u := by
  obtain ⟨ht, a, b, e, hn⟩ := h
  obtain ⟨hu, a', b', e', hn'⟩ := h'
  rw [e] at e'
  rcases List.append_eq_append_iff.1 e' with ⟨c, h1, h2⟩ | ⟨c, h1, h2⟩
  · cases c with
    | nil => simp at h2; exact h2.1
    | cons x c =>
      simp only [List.cons_append, List.cons.injEq] at h2
      exact absurd ht (hn' t (by rw [h1, h2.1]; simp))
  · cases c with
    | nil => simp at h2; exact h2.1.symm
    | cons x c =>
      simp only [List.cons_append, List.cons.injEq] at h2
      exact absurd hu (hn u (by rw [h1, h2.1]; simp))

theorem Spec.FirstMatch.not_noMatch {specials : List Str} {text t : Str} (h : FirstMatch specials text t) :
    ¬ NoMatch specials text := fun hn => hn t h.mem h.1

/-- The three ways the scanning loop can end. -/
theorem splitScan_spec (specials : List Str) (input : Str) : ∀ (rest : Str) (i : Nat), rest = input.drop i → i ≤ input.length →
    (∀ k, k < i → NoMatch specials (input.drop k)) →
    (∃ t, i = 0 ∧ FirstMatch specials input t ∧ splitScan specials input i rest = ((input.take t.length, true), input.drop t.length)) ∨
    (∃ j, 0 < j ∧ j < input.length ∧ (∃ t, FirstMatch specials (input.drop j) t) ∧
      (∀ k, k < j → NoMatch specials (input.drop k)) ∧
      splitScan specials input i rest = ((input.take j, false), input.drop j)) ∨
    ((∀ k, k < input.length → NoMatch specials (input.drop k)) ∧
      splitScan specials input i rest = ((input, false), [])) := by
  intro rest
  induction rest with
  | nil =>
    intro i h hi hn
    right; right
    have : i = input.length := by
      have := congrArg List.length h
      simp at this; omega
    subst this
    exact ⟨hn, rfl⟩
  | cons c cs ih =>
    intro i h hi hn
    have hlt : i < input.length := by
      have := congrArg List.length h
      simp at this; omega
    unfold splitScan
    cases hm : matchAt specials (c :: cs) with
    | some t =>
      have hf := matchAt_some hm
      rw [h] at hf
      simp only
      by_cases h0 : i > 0
      · rw [if_pos h0]
        right; left
        exact ⟨i, h0, hlt, ⟨t, hf⟩, hn, rfl⟩
      · rw [if_neg h0]
        left
        have : i = 0 := by omega
        subst this
        exact ⟨t, rfl, by simpa using hf, rfl⟩
    | none =>
      have hf := matchAt_none.1 hm
      rw [h] at hf
      have hcs : cs = input.drop (i + 1) := by
        rw [show i + 1 = 1 + i by omega, Nat.add_comm, ← List.drop_drop, ← h]; rfl
      have := ih (i + 1) hcs hlt (by
        intro k hk
        rcases Nat.lt_or_ge k i with h' | h'
        · exact hn k h'
        · have : k = i := by omega
          rw [this]; exact hf)
      rcases this with ⟨t, h0, _⟩ | h' | h'
      · omega
      · right; left; exact h'
      · right; right; exact h'

theorem pieceText_cons (p : Str) (b : Bool) (l : List (Str × Bool)) : pieceText ((p, b) :: l) = p ++ pieceText l := by
  simp [pieceText]

theorem isSplit_nil (specials : List Str) : IsSplit specials [] [] := by
  refine ⟨rfl, by simp, ?_, ?_, ?_⟩ <;> intro pre <;> cases pre <;> simp

theorem isSplit_cons {specials : List Str} {rest p : Str} {b : Bool} {pieces : List (Str × Bool)}
    (h : IsSplit specials rest pieces) (hp : p ≠ []) (hs : b = true → FirstMatch specials (p ++ rest) p)
    (ho : b = false → ∀ k, k < p.length → NoMatch specials ((p ++ rest).drop k))
    (ha : b = false → ∀ q post, pieces ≠ (q, false) :: post) : IsSplit specials (p ++ rest) ((p, b) :: pieces) := by
  refine ⟨by rw [pieceText_cons, h.concat], ?_, ?_, ?_, ?_⟩
  · intro x hx
    rcases List.mem_cons.1 hx with rfl | hx
    · exact hp
    · exact h.nonempty x hx
  · intro pre q post e
    cases pre with
    | nil =>
      simp only [List.nil_append, List.cons.injEq, Prod.mk.injEq] at e
      obtain ⟨⟨rfl, hb⟩, rfl⟩ := e
      rw [h.concat]; exact hs hb
    | cons x pre =>
      simp only [List.cons_append, List.cons.injEq] at e
      exact h.special pre q post e.2
  · intro pre q post e
    cases pre with
    | nil =>
      simp only [List.nil_append, List.cons.injEq, Prod.mk.injEq] at e
      obtain ⟨⟨rfl, hb⟩, rfl⟩ := e
      rw [h.concat]; exact ho hb
    | cons x pre =>
      simp only [List.cons_append, List.cons.injEq] at e
      exact h.ordinary pre q post e.2
  · intro pre q r post e
    cases pre with
    | nil =>
      simp only [List.nil_append, List.cons.injEq, Prod.mk.injEq] at e
      exact ha e.1.2 _ _ e.2
    | cons x pre =>
      simp only [List.cons_append, List.cons.injEq] at e
      exact h.alternate pre q r post e.2

theorem Spec.IsSplit.tail {specials : List Str} {input p : Str} {b : Bool} {pieces : List (Str × Bool)}
    (h : IsSplit specials input ((p, b) :: pieces)) : IsSplit specials (pieceText pieces) pieces := by
  refine ⟨rfl, fun x hx => h.nonempty x (by simp [hx]), ?_, ?_, ?_⟩
  · intro pre q post e; exact h.special ((p, b) :: pre) q post (by rw [e]; rfl)
  · intro pre q post e; exact h.ordinary ((p, b) :: pre) q post (by rw [e]; rfl)
  · intro pre q r post e; exact h.alternate ((p, b) :: pre) q r post (by rw [e]; rfl)

/-- The split is unique. -/
theorem isSplit_unique {specials : List Str} : ∀ {pieces pieces' : List (Str × Bool)} {input : Str},
    IsSplit specials input pieces → IsSplit specials input pieces' → pieces = pieces' := by
  intro pieces
  induction pieces with
  | nil =>
    intro pieces' input h h'
    cases pieces' with
    | nil => rfl
    | cons x l =>
      obtain ⟨q, b⟩ := x
      have h1 := h.concat
      have h2 := h'.concat
      rw [pieceText_cons] at h2
      have := h'.nonempty (q, b) (by simp)
      rw [← h1] at h2
      simp [pieceText] at h2
      exact absurd h2.1 this
  | cons x l ih =>
    intro pieces' input h h'
    obtain ⟨p, b⟩ := x
    have hp := h.nonempty (p, b) (by simp)
    cases pieces' with
    | nil =>
      have h1 := h.concat
      have h2 := h'.concat
      rw [pieceText_cons] at h1
      rw [← h2] at h1
      simp [pieceText] at h1
      exact absurd h1.1 hp
    | cons x' l' =>
      obtain ⟨q, b'⟩ := x'
      have hq := h'.nonempty (q, b') (by simp)
      have e1 := h.concat
      have e2 := h'.concat
      rw [pieceText_cons] at e1 e2
      have hpl : 0 < p.length := List.length_pos_iff.2 hp
      have hql : 0 < q.length := List.length_pos_iff.2 hq
      -- an ordinary piece cannot be shorter than the other piece
      have aux : ∀ {p q : Str} {l l' : List (Str × Bool)}, IsSplit specials input ((p, false) :: l) →
          IsSplit specials input ((q, false) :: l') → p.length < q.length → False := by
        intro p q l l' h h' hlt
        have e1 := h.concat
        have e2 := h'.concat
        rw [pieceText_cons] at e1 e2
        have hn := h'.ordinary [] q l' rfl p.length hlt
        rw [e2, ← e1, List.drop_left] at hn
        cases l with
        | nil =>
          have : input.length = p.length := by rw [← e1]; simp [pieceText]
          have : q.length ≤ input.length := by rw [← e2]; simp
          omega
        | cons y l =>
          obtain ⟨r, c⟩ := y
          cases c with
          | false => exact h.alternate [] p r l rfl
          | true =>
            have := h.special [(p, false)] r l rfl
            rw [pieceText_cons] at hn
            exact this.not_noMatch hn
      have hpq : p = q ∧ b = b' := by
        cases b with
        | true =>
          have hf := h.special [] p l rfl
          rw [e1] at hf
          cases b' with
          | true =>
            have hf' := h'.special [] q l' rfl
            rw [e2] at hf'
            exact ⟨hf.unique hf', rfl⟩
          | false =>
            have hn := h'.ordinary [] q l' rfl 0 hql
            rw [e2, List.drop_zero] at hn
            exact absurd hn hf.not_noMatch
        | false =>
          cases b' with
          | true =>
            have hf := h'.special [] q l' rfl
            rw [e2] at hf
            have hn := h.ordinary [] p l rfl 0 hpl
            rw [e1, List.drop_zero] at hn
            exact absurd hn hf.not_noMatch
          | false =>
            refine ⟨?_, rfl⟩
            rcases Nat.lt_trichotomy p.length q.length with hl | hl | hl
            · exact (aux h h' hl).elim
            · have := e1.trans e2.symm
              exact (List.append_inj this hl).1
            · exact (aux h' h hl).elim
      obtain ⟨rfl, rfl⟩ := hpq
      have hrest : pieceText l = pieceText l' := by
        have := e1.trans e2.symm
        exact (List.append_cancel_left this)
      have ht := h.tail
      have ht' := h'.tail
      rw [hrest] at ht
      rw [ih ht ht']

/-- What one call of the splitter returns. An empty piece appears only if the empty string is registered. -/
theorem splitNext_spec {specials : List Str} {input : Str} (hi : input ≠ []) :
    ∃ p b rest, splitNext specials input = some ((p, b), rest) ∧ input = p ++ rest ∧
      (p ≠ [] ∨ (b = true ∧ p = [] ∧ [] ∈ specials)) ∧
      (b = true → FirstMatch specials input p) ∧
      (b = false → (∀ k, k < p.length → NoMatch specials (input.drop k)) ∧ (rest = [] ∨ ∃ t, FirstMatch specials rest t)) := by
  unfold splitNext
  rw [if_neg hi]
  have hpos : 0 < input.length := List.length_pos_iff.2 hi
  rcases splitScan_spec specials input input 0 rfl (Nat.zero_le _) (by intro k hk; omega) with
    ⟨t, _, hf, e⟩ | ⟨j, h1, h2, hf, hn, e⟩ | ⟨hn, e⟩
  · obtain ⟨r, hr⟩ := hf.1
    refine ⟨t, true, input.drop t.length, ?_, ?_, ?_, fun _ => hf, by simp⟩
    · rw [e, ← hr, List.take_left]
    · rw [← hr, List.drop_left]
    · by_cases ht : t = []
      · exact .inr ⟨rfl, ht, ht ▸ hf.mem⟩
      · exact .inl ht
  · refine ⟨input.take j, false, input.drop j, by rw [e], (List.take_append_drop j input).symm, .inl ?_, by simp, ?_⟩
    · intro e'
      have := congrArg List.length e'
      simp at this
      rcases this with h | h
      · omega
      · exact hi h
    · intro _
      refine ⟨?_, .inr hf⟩
      intro k hk
      exact hn k (by simp at hk; omega)
  · exact ⟨input, false, [], by rw [e], by simp, .inl hi, by simp, fun _ => ⟨hn, .inl rfl⟩⟩

/-- If the empty special token is picked, the splitter is stuck. -/
theorem splitAll_stuck {specials : List Str} {input : Str} (h : splitNext specials input = some (([], true), input)) :
    ∀ fuel, splitAll specials fuel input = none := by
  intro fuel
  induction fuel with
  | zero => rfl
  | succ fuel ih => simp [splitAll, h, ih]

/-- Whenever the splitter terminates it returns the split (even if the empty string is registered). -/
theorem splitAll_isSplit {specials : List Str} : ∀ (fuel : Nat) (input : Str) (pieces : List (Str × Bool)),
    splitAll specials fuel input = some pieces → IsSplit specials input pieces := by
  intro fuel
  induction fuel with
  | zero => intro input pieces h; simp [splitAll] at h
  | succ fuel ih =>
    intro input pieces h
    by_cases hi : input = []
    · subst hi
      simp [splitAll, splitNext] at h
      subst h
      exact isSplit_nil specials
    · obtain ⟨p, b, rest, e, hc, hp, hs, ho⟩ := splitNext_spec (specials := specials) hi
      have hp' : p ≠ [] := by
        rcases hp with hp | ⟨hb, hp, _⟩
        · exact hp
        · exfalso
          rw [hb, hp] at e
          rw [hp, List.nil_append] at hc
          rw [← hc] at e
          rw [splitAll_stuck e] at h
          simp at h
      simp only [splitAll, e, Option.map_eq_some_iff] at h
      obtain ⟨pieces', h1, rfl⟩ := h
      have h2 := ih rest pieces' h1
      subst hc
      refine isSplit_cons h2 hp' hs (fun hb => (ho hb).1) ?_
      intro hb q post e'
      subst e'
      rcases (ho hb).2 with hr | ⟨t, ht⟩
      · have := h2.concat
        have hq := h2.nonempty (q, false) (by simp)
        rw [pieceText_cons, hr] at this
        simp at this
        exact hq this.1
      · have hq := h2.nonempty (q, false) (by simp)
        have := h2.ordinary [] q post rfl 0 (List.length_pos_iff.2 hq)
        rw [List.drop_zero, ← pieceText_cons q false, h2.concat] at this
        exact ht.not_noMatch this

/-- If a split exists the splitter finds it, with any fuel exceeding the length. -/
theorem splitAll_of_isSplit {specials : List Str} : ∀ (fuel : Nat) (input : Str) (pieces : List (Str × Bool)),
    input.length < fuel → IsSplit specials input pieces → splitAll specials fuel input = some pieces := by
  intro fuel
  induction fuel with
  | zero => intro input pieces h; omega
  | succ fuel ih =>
    intro input pieces h hs
    cases pieces with
    | nil =>
      have := hs.concat
      simp [pieceText] at this
      subst this
      simp [splitAll, splitNext]
    | cons x pieces =>
      obtain ⟨q, c⟩ := x
      have hq := hs.nonempty (q, c) (by simp)
      have hcat := hs.concat
      rw [pieceText_cons] at hcat
      have hi : input ≠ [] := by
        intro e; rw [e] at hcat; simp at hcat; exact hq hcat.1
      have hql : 0 < q.length := List.length_pos_iff.2 hq
      obtain ⟨p, b, rest, e, hc, hp, h1, h2⟩ := splitNext_spec (specials := specials) hi
      have key : p = q ∧ b = c := by
        cases b with
        | true =>
          have hf := h1 rfl
          cases c with
          | true =>
            have hf' := hs.special [] q pieces rfl
            rw [hcat] at hf'
            exact ⟨hf.unique hf', rfl⟩
          | false =>
            have hn := hs.ordinary [] q pieces rfl 0 hql
            rw [hcat, List.drop_zero] at hn
            exact absurd hn hf.not_noMatch
        | false =>
          have hp' : p ≠ [] := by
            rcases hp with hp | ⟨hb, _⟩
            · exact hp
            · simp at hb
          have hpl : 0 < p.length := List.length_pos_iff.2 hp'
          cases c with
          | true =>
            have hf := hs.special [] q pieces rfl
            rw [hcat] at hf
            have hn := (h2 rfl).1 0 hpl
            rw [List.drop_zero] at hn
            exact absurd hn hf.not_noMatch
          | false =>
            refine ⟨?_, rfl⟩
            have hl : p.length = q.length := by
              rcases Nat.lt_trichotomy p.length q.length with hl | hl | hl
              · exfalso
                have hn := hs.ordinary [] q pieces rfl p.length hl
                rw [hcat, hc, List.drop_left] at hn
                rcases (h2 rfl).2 with hr | ⟨t, ht⟩
                · have := congrArg List.length hc
                  have h3 := congrArg List.length hcat
                  rw [hr] at this
                  simp at this h3; omega
                · exact ht.not_noMatch hn
              · exact hl
              · exfalso
                have hn := (h2 rfl).1 q.length hl
                rw [← hcat, List.drop_left] at hn
                cases pieces with
                | nil =>
                  have := congrArg List.length hc
                  rw [← hcat] at this
                  simp [pieceText] at this; omega
                | cons y l =>
                  obtain ⟨r, d⟩ := y
                  cases d with
                  | false => exact hs.alternate [] q r l rfl
                  | true =>
                    have := hs.special [(q, false)] r l rfl
                    rw [pieceText_cons] at hn
                    exact this.not_noMatch hn
            exact (List.append_inj (hc.symm.trans hcat.symm) hl).1
      obtain ⟨rfl, rfl⟩ := key
      have hrest : rest = pieceText pieces := List.append_cancel_left (hc.symm.trans hcat.symm)
      have := ih rest pieces (by have := congrArg List.length hc; simp at this; omega) (by rw [hrest]; exact hs.tail)
      simp [splitAll, e, this]

/-- The splitter terminates if no special token is empty. -/
theorem splitAll_spec {specials : List Str} (hne : [] ∉ specials) : ∀ (fuel : Nat) (input : Str), input.length < fuel →
    ∃ pieces, splitAll specials fuel input = some pieces ∧ IsSplit specials input pieces := by
  intro fuel
  induction fuel with
  | zero => intro input h; omega
  | succ fuel ih =>
    intro input h
    by_cases hi : input = []
    · subst hi
      exact ⟨[], by simp [splitAll, splitNext], isSplit_nil specials⟩
    · obtain ⟨p, b, rest, e, hc, hp, hs, ho⟩ := splitNext_spec (specials := specials) hi
      have hp' : p ≠ [] := by
        rcases hp with hp | ⟨_, _, hm⟩
        · exact hp
        · exact absurd hm hne
      have hlt : rest.length < fuel := by
        have h1 := congrArg List.length hc
        have h2 : 0 < p.length := List.length_pos_iff.2 hp'
        simp at h1; omega
      obtain ⟨pieces, h1, _⟩ := ih rest hlt
      have h3 : splitAll specials (fuel + 1) input = some ((p, b) :: pieces) := by simp [splitAll, e, h1]
      exact ⟨_, h3, splitAll_isSplit _ _ _ h3⟩

theorem isSplit_exists {specials : List Str} (hne : [] ∉ specials) (input : Str) :
    ∃ pieces, IsSplit specials input pieces := by
  obtain ⟨p, _, h⟩ := splitAll_spec hne (input.length + 1) input (by omega)
  exact ⟨p, h⟩

end Tokengeex

import Verif.Spec.Regex
/-
The matcher finds exactly the matches.
-/
namespace Tokengeex
open Spec

namespace Re

theorem isEmpty_append_flag (before u r : Str) :
    (before.isEmpty && r.length == (u ++ r).length) = (before ++ u).isEmpty := by
  cases before with
  | nil => cases u <;> simp; omega
  | cons b bs => simp

theorem inARow_add (P : Str → Str → Str → Prop) (m n : Nat) : ∀ before w after, InARow P (m + n) before w after ↔
    ∃ u v, w = u ++ v ∧ InARow P m before u (v ++ after) ∧ InARow P n (before ++ u) v after := by
  induction m with
  | zero =>
    intro before w after
    rw [Nat.zero_add]
    constructor
    · intro h; exact ⟨[], w, rfl, rfl, by simpa using h⟩
    · rintro ⟨u, v, rfl, h1, h2⟩
      have : u = [] := h1
      subst this
      simpa using h2
  | succ m ih =>
    intro before w after
    rw [Nat.succ_add]
    constructor
    · rintro ⟨u, v, rfl, h1, h2⟩
      obtain ⟨x, y, rfl, h3, h4⟩ := (ih _ _ _).1 h2
      exact ⟨u ++ x, y, by simp, ⟨u, x, rfl, by simpa using h1, h3⟩, by simpa using h4⟩
    · rintro ⟨u, v, rfl, ⟨x, y, rfl, h1, h3⟩, h2⟩
      exact ⟨x, y ++ v, by simp, by simpa using h1, (ih _ _ _).2 ⟨y, v, rfl, h3, by simpa using h2⟩⟩

/-- Empty matches in a row can be left out. -/
theorem inARow_productive {P : Str → Str → Str → Prop} : ∀ (k : Nat) (before w after : Str), InARow P k before w after →
    ∃ i, i ≤ k ∧ i ≤ w.length ∧ InARow (fun b u a => P b u a ∧ u ≠ []) i before w after := by
  intro k
  induction k with
  | zero => intro before w after h; exact ⟨0, Nat.le_refl _, Nat.zero_le _, h⟩
  | succ k ih =>
    rintro before w after ⟨u, v, rfl, h1, h2⟩
    obtain ⟨i, hi, hl, h3⟩ := ih _ _ _ h2
    cases u with
    | nil => exact ⟨i, by omega, hl, by simpa using h3⟩
    | cons c u => exact ⟨i + 1, by omega, by simp; omega, _, _, rfl, ⟨h1, by simp⟩, h3⟩

theorem inARow_mono {P Q : Str → Str → Str → Prop} (h : ∀ b u a, P b u a → Q b u a) : ∀ (k : Nat) (before w after : Str),
    InARow P k before w after → InARow Q k before w after := by
  intro k
  induction k with
  | zero => intro _ _ _ h; exact h
  | succ k ih => rintro _ _ _ ⟨u, v, rfl, h1, h2⟩; exact ⟨u, v, rfl, h _ _ _ h1, ih _ _ _ h2⟩

/-- What `ends` should be for a predicate. -/
def Sound (f : Bool → Str → List Str) (P : Str → Str → Str → Prop) : Prop :=
  ∀ before rest r, r ∈ f before.isEmpty rest ↔ ∃ w, rest = w ++ r ∧ P before w r

theorem mem_exactly {f : Bool → Str → List Str} {P : Str → Str → Str → Prop} (h : Sound f P) (k : Nat) :
    Sound (exactly f k) (InARow P k) := by
  induction k with
  | zero =>
    intro before rest r
    simp only [exactly, List.mem_singleton, InARow]
    constructor
    · rintro rfl; exact ⟨[], rfl, rfl⟩
    · rintro ⟨w, rfl, rfl⟩; rfl
  | succ k ih =>
    intro before rest r
    rw [exactly, List.mem_flatMap]
    constructor
    · rintro ⟨r', h1, h2⟩
      obtain ⟨u, rfl, hu⟩ := (h _ _ _).1 h1
      rw [isEmpty_append_flag] at h2
      obtain ⟨v, rfl, hv⟩ := (ih _ _ _).1 h2
      exact ⟨u ++ v, by simp, u, v, rfl, hu, hv⟩
    · rintro ⟨w, rfl, u, v, rfl, hu, hv⟩
      refine ⟨v ++ r, (h _ _ _).2 ⟨u, by simp, hu⟩, ?_⟩
      rw [List.append_assoc, isEmpty_append_flag]
      exact (ih _ _ _).2 ⟨v, rfl, hv⟩

theorem mem_atMost {f : Bool → Str → List Str} {P : Str → Str → Str → Prop} (h : Sound f P) (k : Nat) :
    Sound (atMost f k) (fun b w a => ∃ i, i ≤ k ∧ InARow (fun b u a => P b u a ∧ u ≠ []) i b w a) := by
  induction k with
  | zero =>
    intro before rest r
    simp only [atMost, List.mem_singleton]
    constructor
    · rintro rfl; exact ⟨[], rfl, 0, Nat.le_refl _, rfl⟩
    · rintro ⟨w, rfl, i, hi, hw⟩
      have : i = 0 := by omega
      subst this
      have : w = [] := hw
      subst this
      rfl
  | succ k ih =>
    intro before rest r
    rw [atMost, List.mem_cons, List.mem_flatMap]
    constructor
    · rintro (rfl | ⟨r', h1, h2⟩)
      · exact ⟨[], rfl, 0, Nat.zero_le _, rfl⟩
      · obtain ⟨h1, hl⟩ := List.mem_filter.1 h1
        obtain ⟨u, rfl, hu⟩ := (h _ _ _).1 h1
        have hune : u ≠ [] := by
          rintro rfl
          simp at hl
        have hf : (false : Bool) = (before ++ u).isEmpty := by cases u <;> simp at hune ⊢
        rw [hf] at h2
        obtain ⟨v, rfl, i, hi, hv⟩ := (ih _ _ _).1 h2
        exact ⟨u ++ v, by simp, i + 1, by omega, u, v, rfl, ⟨hu, hune⟩, hv⟩
    · rintro ⟨w, rfl, i, hi, hw⟩
      cases i with
      | zero => have : w = [] := hw; subst this; exact Or.inl rfl
      | succ i =>
        obtain ⟨u, v, rfl, ⟨hu, hune⟩, hv⟩ := hw
        refine Or.inr ⟨v ++ r, List.mem_filter.2 ⟨(h _ _ _).2 ⟨u, by simp, hu⟩, ?_⟩, ?_⟩
        · cases u <;> simp at hune ⊢; omega
        · have hf : (false : Bool) = (before ++ u).isEmpty := by cases u <;> simp at hune ⊢
          rw [hf]
          exact (ih _ _ _).2 ⟨v, rfl, i, by omega, hv⟩

theorem inClass_iff (negated : Bool) (ranges : List (Nat × Nat)) (c : Char) : inClass negated ranges c = true ↔
    ((∃ r ∈ ranges, r.1 ≤ c.toNat ∧ c.toNat ≤ r.2) ↔ negated = false) := by
  unfold inClass
  have : (ranges.any fun r => decide (r.1 ≤ c.toNat ∧ c.toNat ≤ r.2)) = true ↔ ∃ r ∈ ranges, r.1 ≤ c.toNat ∧ c.toNat ≤ r.2 := by
    simp
  rw [← this]
  cases (ranges.any fun r => decide (r.1 ≤ c.toNat ∧ c.toNat ≤ r.2)) <;> cases negated <;> simp

theorem mem_ends (re : Re) : Sound re.ends (Matches re) := by
  induction re with
  | empty =>
    intro before rest r
    simp only [ends, List.mem_singleton, Matches]
    constructor
    · rintro rfl; exact ⟨[], rfl, rfl⟩
    · rintro ⟨w, rfl, rfl⟩; rfl
  | cls negated ranges =>
    intro before rest r
    cases rest with
    | nil =>
      simp only [ends, List.not_mem_nil, Matches, false_iff]
      rintro ⟨w, hw, c, rfl, _⟩
      cases hw
    | cons c rest =>
      simp only [ends, Matches]
      by_cases hc : inClass negated ranges c = true
      · rw [if_pos hc, List.mem_singleton]
        constructor
        · rintro rfl; exact ⟨[c], rfl, c, rfl, (inClass_iff _ _ _).1 hc⟩
        · rintro ⟨w, hw, d, rfl, _⟩
          cases hw; rfl
      · rw [if_neg hc]
        constructor
        · intro h; cases h
        · rintro ⟨w, hw, d, rfl, hd⟩
          cases hw
          exact absurd ((inClass_iff _ _ _).2 hd) hc
  | start =>
    intro before rest r
    simp only [ends, Matches]
    cases before with
    | nil =>
      simp only [List.isEmpty_nil, if_true, List.mem_singleton, and_true]
      constructor
      · rintro rfl; exact ⟨[], rfl, rfl⟩
      · rintro ⟨w, rfl, rfl⟩; rfl
    | cons b bs => simp
  | stop =>
    intro before rest r
    simp only [ends, Matches]
    cases rest with
    | nil =>
      simp only [List.isEmpty_nil, if_true, List.mem_singleton]
      constructor
      · rintro rfl; exact ⟨[], rfl, rfl, rfl⟩
      · rintro ⟨w, _, rfl, rfl⟩; rfl
    | cons b bs =>
      simp only [List.isEmpty_cons, Bool.false_eq_true, if_false, List.not_mem_nil, false_iff]
      rintro ⟨w, hw, rfl, rfl⟩
      cases hw
  | cat a b iha ihb =>
    intro before rest r
    rw [ends, List.mem_flatMap]
    simp only [Matches]
    constructor
    · rintro ⟨r', h1, h2⟩
      obtain ⟨u, rfl, hu⟩ := (iha _ _ _).1 h1
      rw [isEmpty_append_flag] at h2
      obtain ⟨v, rfl, hv⟩ := (ihb _ _ _).1 h2
      exact ⟨u ++ v, by simp, u, v, rfl, hu, hv⟩
    · rintro ⟨w, rfl, u, v, rfl, hu, hv⟩
      refine ⟨v ++ r, (iha _ _ _).2 ⟨u, by simp, hu⟩, ?_⟩
      rw [List.append_assoc, isEmpty_append_flag]
      exact (ihb _ _ _).2 ⟨v, rfl, hv⟩
  | alt a b iha ihb =>
    intro before rest r
    rw [ends, List.mem_append, iha, ihb]
    simp only [Matches]
    constructor
    · rintro (⟨w, h1, h2⟩ | ⟨w, h1, h2⟩)
      · exact ⟨w, h1, Or.inl h2⟩
      · exact ⟨w, h1, Or.inr h2⟩
    · rintro ⟨w, h1, h2 | h2⟩
      · exact Or.inl ⟨w, h1, h2⟩
      · exact Or.inr ⟨w, h1, h2⟩
  | rep a min max ih =>
    intro before rest r
    rw [ends]
    simp only [Matches]
    by_cases hm : max.any (· < min) = true
    · rw [if_pos hm]
      simp only [List.not_mem_nil, false_iff]
      rintro ⟨w, rfl, k, h1, h2, _⟩
      cases max with
      | none => simp at hm
      | some n => have := h2 n rfl; simp at hm; omega
    · rw [if_neg hm, List.mem_flatMap]
      constructor
      · rintro ⟨r', h1, h2⟩
        obtain ⟨u, rfl, hu⟩ := (mem_exactly ih min _ _ _).1 h1
        rw [isEmpty_append_flag] at h2
        obtain ⟨v, rfl, i, hi, hv⟩ := (mem_atMost ih _ _ _ _).1 h2
        refine ⟨u ++ v, by simp, min + i, by omega, ?_, (inARow_add _ _ _ _ _ _).2 ⟨u, v, rfl, hu, inARow_mono (fun _ _ _ h => h.1) _ _ _ _ hv⟩⟩
        rintro n rfl
        simp at hm hi
        omega
      · rintro ⟨w, rfl, k, h1, h2, h3⟩
        obtain ⟨i, rfl⟩ := Nat.exists_eq_add_of_le h1
        obtain ⟨u, v, rfl, hu, hv⟩ := (inARow_add _ _ _ _ _ _).1 h3
        obtain ⟨j, hj, hl, hv'⟩ := inARow_productive _ _ _ _ hv
        refine ⟨v ++ r, (mem_exactly ih min _ _ _).2 ⟨u, by simp, hu⟩, ?_⟩
        rw [List.append_assoc, isEmpty_append_flag]
        refine (mem_atMost ih _ _ _ _).2 ⟨v, rfl, j, ?_, hv'⟩
        cases max with
        | none => simp; omega
        | some n => have := h2 n rfl; simp; omega

theorem matchesFrom_iff (re : Re) : ∀ (rest before : Str), re.matchesFrom before.isEmpty rest = true ↔
    ∃ p w after, rest = p ++ w ++ after ∧ Matches re (before ++ p) w after := by
  have key : ∀ (rest before : Str), (!(re.ends before.isEmpty rest).isEmpty) = true ↔
      ∃ w after, rest = w ++ after ∧ Matches re before w after := by
    intro rest before
    constructor
    · intro h
      cases he : re.ends before.isEmpty rest with
      | nil => rw [he] at h; simp at h
      | cons r l =>
        obtain ⟨w, h1, h2⟩ := (mem_ends re before rest r).1 (by rw [he]; exact List.mem_cons_self ..)
        exact ⟨w, r, h1, h2⟩
    · rintro ⟨w, after, h1, h2⟩
      have := (mem_ends re before rest after).2 ⟨w, h1, h2⟩
      cases he : re.ends before.isEmpty rest with
      | nil => rw [he] at this; cases this
      | cons r l => rfl
  intro rest
  induction rest with
  | nil =>
    intro before
    rw [matchesFrom, key]
    constructor
    · rintro ⟨w, after, h1, h2⟩; exact ⟨[], w, after, by simpa using h1, by simpa using h2⟩
    · rintro ⟨p, w, after, h1, h2⟩
      have h1' := h1.symm
      simp only [List.append_eq_nil_iff] at h1'
      obtain ⟨⟨rfl, rfl⟩, rfl⟩ := h1'
      exact ⟨[], [], rfl, by simpa using h2⟩
  | cons c rest ih =>
    intro before
    have hf : (false : Bool) = (before ++ [c]).isEmpty := by simp
    rw [matchesFrom, Bool.or_eq_true, key, hf, ih]
    constructor
    · rintro (⟨w, after, h1, h2⟩ | ⟨p, w, after, rfl, h2⟩)
      · exact ⟨[], w, after, by simpa using h1, by simpa using h2⟩
      · exact ⟨c :: p, w, after, by simp, by simpa using h2⟩
    · rintro ⟨p, w, after, h1, h2⟩
      cases p with
      | nil => exact Or.inl ⟨w, after, by simpa using h1, by simpa using h2⟩
      | cons d p =>
        simp only [List.cons_append, List.cons.injEq] at h1
        obtain ⟨rfl, h1⟩ := h1
        exact Or.inr ⟨p, w, after, h1, by simpa using h2⟩

/-- The matcher finds a match exactly if there is one. -/
theorem isMatch_iff (re : Re) (s : Str) : re.isMatch s = true ↔ MatchesIn re s := by
  have := matchesFrom_iff re s []
  unfold isMatch MatchesIn
  simpa using this

end Re
end Tokengeex

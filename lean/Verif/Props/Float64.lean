import Verif.Proofs.Float64
import Verif.Props.Model
import Verif.Props.Lattice
/-
C57: the results about scores, for IEEE doubles.
-/
namespace Tokengeex
open Spec ScoreOps

/-- C57, the arithmetic: rounding gives the nearest number with 53 significant bits, ties to even (`Spec.Nearest`), and
everything below the limit is a double; doubles are not changed by it. -/
theorem C57_rounding (n d : Nat) (hd : 0 < d) :
    Nearest n d (F64.roundMag n d) ∧ (F64.roundMag n d < 2 ^ 2098 → IsDouble (F64.roundMag n d)) ∧
    (IsDouble n → F64.roundMag n 1 = n) :=
  ⟨F64.roundMag_nearest n d hd, by rw [← F64.limitExp_eq]; exact F64.isDouble_roundMag hd, F64.roundMag_double⟩

/-- C57, addition: the sum of two finite doubles is the exact sum rounded to the nearest double, infinite from `2^1024`
on; an exact sum of zero is `-0` if both are negative zeros, and `+0` otherwise. -/
theorem C57_add (s t : Bool) (n m : Nat) :
    let exact := (if s then -(n : Int) else n) + (if t then -(m : Int) else m)
    (exact = 0 → F64.add (.num s n) (.num t m) = .num (s && t) 0) ∧
    (exact ≠ 0 → ∃ v, Nearest exact.natAbs 1 v ∧
      F64.add (.num s n) (.num t m) = if v < 2 ^ 2098 then .num (decide (exact < 0)) v else .inf (decide (exact < 0))) := by
  have hround : ∀ (s : Bool) (n : Nat), F64.round s n 1 =
      if F64.roundMag n 1 < 2 ^ 2098 then .num s (F64.roundMag n 1) else .inf s := by
    intro s n
    rw [F64.round, F64.limit, F64.limitExp_eq]
  have hz : F64.roundMag 0 1 = 0 := F64.roundMag_double ⟨0, 0, by decide, by omega, by simp⟩
  have hpos : (0 : Nat) < 2 ^ 2098 := Nat.pow_pos (by omega)
  intro exact
  rw [F64.add_num]
  constructor
  · intro he
    by_cases h1 : s = t
    · rw [if_pos h1]
      subst h1
      have hn : n + m = 0 := by cases s <;> simp [exact] at he <;> omega
      rw [hn, hround, hz, if_pos hpos, Bool.and_self]
    · rw [if_neg h1]
      have hn : n = m := by cases s <;> cases t <;> simp [exact] at he h1 <;> omega
      rw [if_pos hn]
      cases s <;> cases t <;> simp at h1 <;> rfl
  · intro he
    refine ⟨F64.roundMag exact.natAbs 1, F64.roundMag_nearest _ _ (by omega), ?_⟩
    by_cases h1 : s = t
    · rw [if_pos h1, hround]
      subst h1
      have e1 : exact.natAbs = n + m := by cases s <;> simp [exact] <;> omega
      have e2 : decide (exact < 0) = s := by cases s <;> simp [exact] at he ⊢ <;> omega
      rw [e1, e2]
    · rw [if_neg h1]
      have hn : n ≠ m := by
        rintro rfl
        apply he
        cases s <;> cases t <;> simp [exact] at h1 ⊢ <;> omega
      rw [if_neg hn]
      by_cases h2 : m < n
      · rw [if_pos h2, hround]
        have e1 : exact.natAbs = n - m := by cases s <;> cases t <;> simp [exact] at h1 ⊢ <;> omega
        have e2 : decide (exact < 0) = s := by cases s <;> cases t <;> simp [exact] at h1 ⊢ <;> omega
        rw [e1, e2]
      · rw [if_neg h2, hround]
        have e1 : exact.natAbs = m - n := by cases s <;> cases t <;> simp [exact] at h1 ⊢ <;> omega
        have e2 : decide (exact < 0) = t := by cases s <;> cases t <;> simp [exact] at h1 ⊢ <;> omega
        rw [e1, e2]

/-- C57, special values: NaN is kept, infinities of opposite sign give NaN, and an infinity absorbs everything else. -/
theorem C57_add_special (x : F64) (s : Bool) (n : Nat) :
    F64.add .nan x = .nan ∧ F64.add x .nan = .nan ∧ F64.add (.inf s) (.inf !s) = .nan ∧ F64.add (.inf s) (.inf s) = .inf s ∧
    F64.add (.inf s) (.num (!s) n) = .inf s ∧ F64.add (.inf s) (.num s n) = .inf s ∧
    F64.add (.num (!s) n) (.inf s) = .inf s ∧ F64.add (.num s n) (.inf s) = .inf s := by
  refine ⟨?_, ?_, ?_, ?_, ?_, ?_, ?_, ?_⟩ <;> cases s <;> cases x <;> rfl

/-- C57, comparison: finite doubles compare as the numbers they stand for, whatever the sign of a zero; infinities are
beyond all finite doubles and equal to themselves; and a comparison with NaN is false. -/
theorem C57_compare (s t : Bool) (n m : Nat) :
    (F64.lt (.num s n) (.num t m) = true ↔ (if s then -(n : Int) else n) < (if t then -(m : Int) else m)) ∧
    (F64.le (.num s n) (.num t m) = true ↔ (if s then -(n : Int) else n) ≤ (if t then -(m : Int) else m)) ∧
    (n < 2 ^ 2098 → F64.lt (.inf true) (.num s n) = true ∧ F64.le (.inf true) (.num s n) = true ∧
      F64.lt (.num s n) (.inf true) = false ∧ F64.le (.num s n) (.inf true) = false ∧
      F64.lt (.num s n) (.inf false) = true ∧ F64.le (.num s n) (.inf false) = true ∧
      F64.lt (.inf false) (.num s n) = false ∧ F64.le (.inf false) (.num s n) = false) ∧
    (F64.lt (.inf s) (.inf t) = (s && !t)) ∧ (F64.le (.inf s) (.inf t) = (s || !t)) ∧
    ∀ x, F64.lt .nan x = false ∧ F64.lt x .nan = false ∧ F64.le .nan x = false ∧ F64.le x .nan = false := by
  have hpos : 0 < F64.limit := by rw [F64.limit]; exact Nat.two_pow_pos _
  have hl : F64.limit = 2 ^ 2098 := by rw [F64.limit, F64.limitExp_eq]
  rw [← hl]
  generalize hL : F64.limit = L at *
  refine ⟨?_, ?_, ?_, ?_, ?_, ?_⟩
  · rw [F64.lt_true (by simp) (by simp)]; rfl
  · rw [F64.le_true (by simp) (by simp)]; rfl
  · intro hn
    cases s <;> simp [F64.lt, F64.le, F64.key, hL] <;> omega
  · cases s <;> cases t <;> simp [F64.lt, F64.key, hL] <;> omega
  · cases s <;> cases t <;> simp [F64.le, F64.key, hL] <;> omega
  · intro x
    simp [F64.lt, F64.le]

example : F64.lt (.num true 3) (.num false 0) = true ∧ F64.le (.num true 0) (.num false 0) = true ∧
    F64.le (.num false 0) (.num true 0) = true := by decide

/-- C57.  For every vocabulary whose scores are doubles, and either all finite (of any sign) or all not NaN and not positive
(minus infinity included), no segmentation of the input into tokens has a larger score, added up with IEEE rounding, than the
one `encode` returns. -/
theorem C57_encode_optimal (vocab : List (ScoredToken F64)) (hdouble : ∀ t ∈ vocab, IsF64 t.score)
    (hscore : (∀ t ∈ vocab, Finite t.score) ∨ ∀ t ∈ vocab, NonPositive t.score) (s : Str) (dropout : F64) (rnd : Nat → F64)
    (hd : F64.le dropout (.num false 0) = true) (ids : List Nat)
    (h : (Model.from_ vocab).encode s dropout rnd = .ok ids) (other : List Nat) (hs : Spells vocab other (enc s))
    (hcan : ∀ i ∈ other, ∃ v, v ≠ [] ∧ LastIndex vocab v i) :
    F64.lt (totalScore vocab ids) (totalScore vocab other) = false := by
  rcases hscore with hf | hscore
  · exact C05_encode_optimal F64.Total Finite F64.finiteLaws vocab hf s dropout rnd hd ids h other hs hcan
  · exact C05_encode_optimal F64.Good F64.Good F64.scoreLaws vocab (fun t ht => ⟨hdouble t ht, hscore t ht⟩) s dropout rnd hd
      ids h other hs hcan

/-- `-1.0`, `-2^-53` and `-0.1` (the nearest double). -/
def exMinusOne : F64 := .num true (2 ^ 1074)
def exMinusTiny : F64 := .num true (2 ^ 1021)
def exMinusTenth : F64 := F64.round true (2 ^ 1074) 10

/-- Rounding matters: `-1.0` and twice `-2^-53`, added from the left, is `-1.0` again, but `-0.1` three times is not `-0.3`;
and a vocabulary of such scores meets the conditions. -/
example :
    F64.add (F64.add exMinusOne exMinusTiny) exMinusTiny = exMinusOne ∧
    F64.add exMinusOne (F64.add exMinusTiny exMinusTiny) ≠ exMinusOne ∧
    F64.add (F64.add exMinusTenth exMinusTenth) exMinusTenth ≠ F64.round true (3 * 2 ^ 1074) 10 ∧
    (Model.from_ [⟨[97], exMinusTiny, false⟩, ⟨[98], exMinusOne, false⟩, ⟨[97, 97], exMinusTenth, false⟩,
      ⟨[98, 97], .inf true, false⟩]).encode ['b', 'a', 'a'] (.num false 0) (fun _ => .num false 0) = .ok [1, 0, 0] := by
  decide +kernel

example : ∀ x ∈ [exMinusOne, exMinusTiny, exMinusTenth, .inf true], IsF64 x ∧ NonPositive x := by
  have hinf : (F64.inf true).key ≤ 0 := by
    have := F64.limit_pos
    simp only [F64.key, if_true]
    omega
  have hneg : ∀ n, (F64.num true n).key ≤ 0 := by
    intro n
    simp only [F64.key, if_true]
    omega
  have h : ∀ n d, NonPositive (F64.round true n d) := by
    intro n d
    refine ⟨F64.round_ne_nan _ _ _, ?_⟩
    rcases F64.round_cases true n d with h | h
    · rw [h]; simp [F64.key]
    · rw [h]; exact hinf
  intro x hx
  simp only [List.mem_cons, List.not_mem_nil, or_false] at hx
  rcases hx with hx | hx | hx | hx <;> rw [hx]
  · exact ⟨⟨1, 1074, by decide, by omega, by simp⟩, by simp [exMinusOne], by rw [exMinusOne]; exact hneg _⟩
  · exact ⟨⟨1, 1021, by decide, by omega, by simp⟩, by simp [exMinusTiny], by rw [exMinusTiny]; exact hneg _⟩
  · rw [exMinusTenth]
    generalize 2 ^ 1074 = n
    exact ⟨F64.isF64_round _ _ (by decide), h _ _⟩
  · exact ⟨trivial, by simp, hinf⟩

/-- `1.5` and `-0.1`, and the largest double, whose double is infinite. -/
example : ∀ x ∈ [F64.num false (3 * 2 ^ 1073), .num true (2 ^ 1074), .num false ((2 ^ 53 - 1) * 2 ^ 2045)], Finite x := by
  intro x hx
  simp only [List.mem_cons, List.not_mem_nil, or_false] at hx
  rcases hx with hx | hx | hx <;> rw [hx]
  · exact ⟨3, 1073, by decide, by omega, rfl⟩
  · exact ⟨1, 1074, by decide, by omega, by simp⟩
  · exact ⟨2 ^ 53 - 1, 2045, by decide, by omega, rfl⟩

example : (Model.from_ [⟨[97], .num false (3 * 2 ^ 1073), false⟩, ⟨[98], exMinusOne, false⟩,
      ⟨[97, 98], .num false (2 ^ 1072), false⟩]).encode ['a', 'b', 'a'] (.num false 0) (fun _ => .num false 0) =
    .ok [0, 1, 0] := by
  decide +kernel

/-- **C57** (what does not hold) With infinite scores of both signs, which are not NaN, `encode` may return a segmentation that
is not best: a path whose score is NaN is never replaced by a better one. -/
theorem C57_infinite_false : ¬ ∀ (vocab : List (ScoredToken F64)), (∀ t ∈ vocab, IsF64 t.score ∧ t.score ≠ .nan) →
    ∀ (s : Str) (dropout : F64) (rnd : Nat → F64), F64.le dropout (.num false 0) = true → ∀ (ids : List Nat),
    (Model.from_ vocab).encode s dropout rnd = .ok ids → ∀ (other : List Nat), Spells vocab other (enc s) →
    (∀ i ∈ other, ∃ v, v ≠ [] ∧ LastIndex vocab v i) → F64.lt (totalScore vocab ids) (totalScore vocab other) = false := by
  intro h
  have hone : IsDouble (2 ^ 1074) := ⟨1, 1074, by decide, by omega, (Nat.one_mul _).symm⟩
  have := h
    [⟨[97], .inf false, false⟩, ⟨[98, 99], .inf true, false⟩, ⟨[97, 98], .num true (2 ^ 1074), false⟩,
      ⟨[99], .num true (2 ^ 1074), false⟩, ⟨[100], .num true (2 ^ 1074), false⟩,
      ⟨[97, 98, 99, 100], .num true (2 ^ 1078), false⟩]
    (by
      intro t ht
      simp only [List.mem_cons, List.not_mem_nil, or_false] at ht
      rcases ht with rfl | rfl | rfl | rfl | rfl | rfl
      · exact ⟨trivial, by simp⟩
      · exact ⟨trivial, by simp⟩
      · exact ⟨hone, by simp⟩
      · exact ⟨hone, by simp⟩
      · exact ⟨hone, by simp⟩
      · exact ⟨⟨1, 1078, by decide, by omega, (Nat.one_mul _).symm⟩, by simp⟩)
    ['a', 'b', 'c', 'd'] (.num false 0) (fun _ => .num false 0) (by decide +kernel) [5] (by decide +kernel) [2, 3, 4]
    ⟨[⟨[97, 98], .num true (2 ^ 1074), false⟩, ⟨[99], .num true (2 ^ 1074), false⟩, ⟨[100], .num true (2 ^ 1074), false⟩],
      rfl, by decide⟩
    (by
      intro i hi
      simp only [List.mem_cons, List.not_mem_nil, or_false] at hi
      rcases hi with rfl | rfl | rfl
      · exact ⟨[97, 98], by simp, lastIndex_of_nodup (by unfold NoDuplicates; decide)
          (show _ = some ⟨[97, 98], .num true (2 ^ 1074), false⟩ from rfl)⟩
      · exact ⟨[99], by simp, lastIndex_of_nodup (by unfold NoDuplicates; decide)
          (show _ = some ⟨[99], .num true (2 ^ 1074), false⟩ from rfl)⟩
      · exact ⟨[100], by simp, lastIndex_of_nodup (by unfold NoDuplicates; decide)
          (show _ = some ⟨[100], .num true (2 ^ 1074), false⟩ from rfl)⟩)
  revert this
  decide +kernel

/-- The same for the best path of a lattice (`Lattice::viterbi`), which adds up scores in another order of operations. -/
theorem C57_viterbi (vocab : List (ScoredToken F64)) (hdouble : ∀ t ∈ vocab, IsF64 t.score)
    (hscore : (∀ t ∈ vocab, Finite t.score) ∨ ∀ t ∈ vocab, NonPositive t.score) (s : Str) (d d' : F64) (rnd rnd' : Nat → F64)
    (hd : F64.lt (.num false 0) d = false) (hd' : F64.le d' (.num false 0) = true)
    (hbytes : BytesCovered vocab (enc s)) (ids : List Nat) (h : (Model.from_ vocab).encode s d' rnd' = .ok ids) :
    ∃ l k l' nodes path, (Model.from_ vocab).populateNodes (latticeOf (enc s) []) d rnd = .ok (l, k) ∧
      l.viterbi = .ok (l', nodes) ∧ IsResult (enc s).length nodes path ∧
      Spells vocab (path.map (·.id)) (enc s) ∧
      F64.lt (totalScore vocab (path.map (·.id))) (totalScore vocab ids) = false ∧
      F64.lt (totalScore vocab ids) (totalScore vocab (path.map (·.id))) = false := by
  rcases hscore with hf | hscore
  · obtain ⟨l, k, l', nodes, path, h1, h2, h3, h4, _, h6⟩ :=
      C34_same_score_partial F64.Total Finite F64.finiteLaws F64.zeroNeutral vocab hf s d d' rnd rnd' hd hd'
        (C34_no_gaps vocab (enc s) hbytes) ids h
    exact ⟨l, k, l', nodes, path, h1, h2, h3, h4, h6⟩
  · obtain ⟨l, k, l', nodes, path, h1, h2, h3, h4, _, h6⟩ :=
      C34_same_score_partial F64.Good F64.Good F64.scoreLaws
        (fun a b ha hb => F64.zeroNeutral a b ha.total hb.total) vocab
        (fun t ht => ⟨hdouble t ht, hscore t ht⟩) s d d' rnd rnd' hd hd' (C34_no_gaps vocab (enc s) hbytes) ids h
    exact ⟨l, k, l', nodes, path, h1, h2, h3, h4, h6⟩

end Tokengeex

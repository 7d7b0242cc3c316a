import Verif.Props.Relative
import Verif.Props.Rounding
import Verif.Proofs.Stable
/-
C109 with doubles: multiplying all scores by a power of two changes no encoding.
-/
namespace Tokengeex
open Spec ScoreOps

namespace F64

theorem roundMag_scale (n k : Nat) : roundMag (n * 2 ^ k) 1 = roundMag n 1 * 2 ^ k := by
  rcases Nat.lt_or_ge n (2 ^ 53) with h | h
  · rw [roundMag_mul_pow k h]
    have := roundMag_mul_pow 0 h
    rw [Nat.pow_zero, Nat.mul_one] at this
    rw [this]
  · have hne : n ≠ 0 := by omega
    have h1 : 53 ≤ Nat.log2 n := (Nat.le_log2 hne).2 h
    have h2 : spacing (n * 2 ^ k) 1 = spacing n 1 + k := by
      unfold spacing
      rw [Nat.div_one, Nat.div_one]
      have : Nat.log2 (n * 2 ^ k) = Nat.log2 n + k := by
        have a1 := Nat.log2_self_le hne
        have a2 := Nat.lt_log2_self (n := n)
        have hp : 0 < 2 ^ k := Nat.pow_pos (by omega)
        have hne' : n * 2 ^ k ≠ 0 := Nat.mul_ne_zero hne (by omega)
        apply Nat.le_antisymm
        · have : Nat.log2 (n * 2 ^ k) < Nat.log2 n + 1 + k := by
            rw [Nat.log2_lt hne', Nat.pow_add]
            exact Nat.mul_lt_mul_of_pos_right a2 hp
          omega
        · rw [Nat.le_log2 hne', Nat.pow_add]
          exact Nat.mul_le_mul_right _ a1
      rw [this]
      omega
    unfold roundMag
    rw [h2, Nat.one_mul, Nat.one_mul, Nat.pow_add, roundDiv_scale _ _ _ (Nat.pow_pos (by omega)), Nat.mul_assoc]

theorem round_scale {s : Bool} {n k : Nat} (h : Spec.Finite (round s (n * 2 ^ k) 1)) :
    ∃ q, round s n 1 = num s q ∧ round s (n * 2 ^ k) 1 = num s (q * 2 ^ k) := by
  unfold round at h ⊢
  rw [roundMag_scale] at h ⊢
  by_cases hl : roundMag n 1 * 2 ^ k < limit
  · have : roundMag n 1 < limit := Nat.lt_of_le_of_lt (Nat.le_mul_of_pos_right _ (Nat.pow_pos (by omega))) hl
    exact ⟨roundMag n 1, by rw [if_pos this], by rw [if_pos hl]⟩
  · rw [if_neg hl] at h
    exact h.elim

/-- Adding numbers that are both multiplied by a power of two. -/
theorem add_scale {s t : Bool} {n m k : Nat} (h : Spec.Finite (add (num s (n * 2 ^ k)) (num t (m * 2 ^ k)))) :
    ∃ r q, add (num s n) (num t m) = num r q ∧ add (num s (n * 2 ^ k)) (num t (m * 2 ^ k)) = num r (q * 2 ^ k) := by
  have hp : 0 < 2 ^ k := Nat.pow_pos (by omega)
  unfold add at h ⊢
  by_cases hst : s = t
  · simp only [if_pos hst] at h ⊢
    rw [← Nat.add_mul] at h ⊢
    exact ⟨s, round_scale h⟩
  · simp only [if_neg hst] at h ⊢
    by_cases hnm : n = m
    · subst hnm
      simp only [if_true] at h ⊢
      exact ⟨false, 0, rfl, by rw [Nat.zero_mul]⟩
    · have hnm' : ¬ n * 2 ^ k = m * 2 ^ k := fun e => hnm (Nat.eq_of_mul_eq_mul_right hp e)
      simp only [if_neg hnm, if_neg hnm'] at h ⊢
      by_cases hlt : m < n
      · have hlt' : m * 2 ^ k < n * 2 ^ k := Nat.mul_lt_mul_of_pos_right hlt hp
        simp only [if_pos hlt, if_pos hlt'] at h ⊢
        rw [← Nat.sub_mul] at h ⊢
        exact ⟨s, round_scale h⟩
      · have hlt' : ¬ m * 2 ^ k < n * 2 ^ k := fun e => hlt (Nat.lt_of_mul_lt_mul_right e)
        simp only [if_neg hlt, if_neg hlt'] at h ⊢
        rw [← Nat.sub_mul] at h ⊢
        exact ⟨t, round_scale h⟩

theorem lt_scale (s t : Bool) (n m k : Nat) : lt (num s (n * 2 ^ k)) (num t (m * 2 ^ k)) = lt (num s n) (num t m) := by
  have hp : (0 : Int) < 2 ^ k := by positivity
  have key : ∀ (s : Bool) (n : Nat), (num s (n * 2 ^ k)).key = (num s n).key * 2 ^ k := by
    intro s n
    cases s <;> simp [F64.key]
  rw [Bool.eq_iff_iff, lt_true (by simp) (by simp), lt_true (by simp) (by simp), key, key]
  exact Int.mul_lt_mul_right hp

end F64

/-- A sum of few scores that are not too big is finite. -/
theorem total_finite {vocab : List (ScoredToken F64)} {B : ℝ} (hB0 : 0 ≤ B) (hB : ∀ t ∈ vocab, Finite t.score ∧ |real t.score| ≤ B)
    {N : Nat} (hN : N + 1 ≤ 2 ^ 52) (hbig : ((N : ℝ) + 1) * B ≤ 2 ^ 999) {ids : List Nat} (hl : ids.length ≤ N) :
    Finite (totalScore vocab ids) := by
  have hN : ((N : ℝ) + 1) ≤ 2 ^ 52 := by exact_mod_cast hN
  have h0 : (0 : ℝ) ≤ (N : ℝ) + 1 := by positivity
  have hNB : 0 ≤ ((N : ℝ) + 1) * B := mul_nonneg h0 hB0
  have hδB : ((N : ℝ) + 1) * B / 2 ^ 52 ≤ B := by
    rw [div_le_iff₀ (by positivity)]
    nlinarith
  have hsum : ((N : ℝ) + 1) * (B + ((N : ℝ) + 1) * B / 2 ^ 52) ≤ 2 * (((N : ℝ) + 1) * B) := by
    have := mul_le_mul_of_nonneg_left hδB h0
    linarith
  exact (F64.foldl_err (B := B) (δ := ((N : ℝ) + 1) * B / 2 ^ 52) N
      (by
        refine hsum.trans (le_of_eq ?_)
        rw [show (53 : Nat) = 1 + 52 from rfl, pow_add, mul_assoc, mul_div_cancel₀ _ (by positivity)]
        norm_num)
      (by
        refine hsum.trans ?_
        rw [show (1000 : Nat) = 1 + 999 from rfl, pow_add, pow_one]
        exact mul_le_mul_of_nonneg_left hbig (by norm_num))
      hB0 (by positivity) (ids.map (scoreOf vocab)) (.num false 0) 0
      (by
        intro x hx
        obtain ⟨i, _, rfl⟩ := List.mem_map.1 hx
        unfold scoreOf
        cases hi : vocab[i]? with
        | none => exact ⟨F64.finite_posZero, by show |real (F64.num false 0)| ≤ B; rw [F64.real_zero]; simpa using hB0⟩
        | some t => exact hB t (List.mem_of_getElem? hi))
      F64.finite_posZero (by rw [F64.real_zero]; simp) (by simpa using hl)).1

/-- **C109** (doubles) With double scores: multiplying all of them by a power of two changes no encoding, unless numbers become so
big that a total could overflow.  (`.num neg n` stands for the number of `n` units of 2⁻¹⁰⁷⁴.) -/
theorem C109_doubles (k : Nat) (v w : List (ScoredToken F64)) (hv : ∀ t ∈ v, Finite t.score) (B : ℝ) (hB0 : 0 ≤ B)
    (hB : ∀ t ∈ w, Finite t.score ∧ |real t.score| ≤ B) (htok : v.map (·.value) = w.map (·.value))
    (hscore : ∀ (i : Nat) t u, v[i]? = some t → w[i]? = some u → ∃ neg n, t.score = .num neg n ∧ u.score = .num neg (n * 2 ^ k))
    (s : Str) (hlen : (enc s).length + 1 ≤ 2 ^ 52) (hbig : (((enc s).length : ℝ) + 1) * B ≤ 2 ^ 999)
    (dropout dropout' : F64) (rnd rnd' : Nat → F64) (hd : F64.le dropout (.num false 0) = true)
    (hd' : F64.le dropout' (.num false 0) = true) :
    (Model.from_ v).encode s dropout rnd = (Model.from_ w).encode s dropout' rnd' := by
  refine C109_order F64.Total Finite F64.finiteLaws F64.Total Finite F64.finiteLaws v w hv (fun t ht => (hB t ht).1) htok s dropout
    dropout' rnd rnd' hd hd' ?_
  have total : ∀ ids : List Nat, ids.length ≤ (enc s).length →
      ∃ r q, totalScore v ids = .num r q ∧ totalScore w ids = .num r (q * 2 ^ k) := by
    intro ids
    induction ids using List.reverseRecOn with
    | nil => intro _; exact ⟨false, 0, rfl, by rw [Nat.zero_mul]; rfl⟩
    | append_singleton ids i ih =>
      intro hl
      have hfin := total_finite hB0 hB hlen hbig hl
      rw [List.length_append, List.length_singleton] at hl
      obtain ⟨r, q, e1, e2⟩ := ih (by omega)
      have snoc : ∀ x : List (ScoredToken F64), totalScore x (ids ++ [i]) = F64.add (totalScore x ids) (scoreOf x i) := by
        intro x
        unfold totalScore
        rw [List.map_append, List.foldl_append]
        rfl
      have hs : ∃ neg n, scoreOf v i = .num neg n ∧ scoreOf w i = .num neg (n * 2 ^ k) := by
        have := relative_get htok i
        cases h1 : v[i]? with
        | none =>
          rw [h1] at this
          have h2 := Option.map_eq_none_iff.1 this.symm
          refine ⟨false, 0, ?_, ?_⟩
          · unfold scoreOf; rw [h1]; rfl
          · unfold scoreOf; rw [h2, Nat.zero_mul]; rfl
        | some t =>
          rw [h1] at this
          obtain ⟨u, h4, _⟩ := Option.map_eq_some_iff.1 this.symm
          rw [scoreOf_some h1, scoreOf_some h4]
          exact hscore i t u h1 h4
      obtain ⟨neg, n, e3, e4⟩ := hs
      rw [snoc, e2, e4] at hfin
      rw [snoc, snoc, e1, e2, e3, e4]
      exact F64.add_scale hfin
  intro bs a b hp ha hac hb hbc
  obtain ⟨ra, qa, e1, e2⟩ := total a ((spelling_length ha hac).trans hp.length_le)
  obtain ⟨rb, qb, e3, e4⟩ := total b ((spelling_length hb hbc).trans hp.length_le)
  rw [e1, e2, e3, e4]
  exact (F64.lt_scale ra rb qa qb k).symm

/-- `a`, `b` and `ab` with scores of 3, 5 and 7 times `-2^k` units. -/
def powVocab (k : Nat) : List (ScoredToken F64) :=
  [⟨[97], .num true (3 * 2 ^ k), false⟩, ⟨[98], .num true (5 * 2 ^ k), false⟩, ⟨[97, 98], .num true (7 * 2 ^ k), false⟩]

theorem powVocab_ok (k : Nat) (hk : k ≤ 1074) : ∀ t ∈ powVocab k, Finite t.score ∧ |real t.score| ≤ 7 := by
  have hreal : ∀ n : Nat, n ≤ 7 → |real (.num true (n * 2 ^ k))| ≤ 7 := by
    intro n hn
    rw [real, if_pos rfl, abs_mul, abs_neg, abs_of_nonneg (by positivity), abs_of_nonneg (by positivity), Nat.cast_mul, Nat.cast_pow,
      mul_assoc]
    have h1 : ((2 : ℕ) : ℝ) ^ k * (1 / 2) ^ 1074 ≤ 1 := by
      rw [one_div, inv_pow, ← div_eq_mul_inv, div_le_one (by positivity), Nat.cast_ofNat]
      exact pow_le_pow_right₀ (by norm_num) hk
    have h2 : (n : ℝ) ≤ 7 := by exact_mod_cast hn
    have h3 : (0 : ℝ) ≤ ((2 : ℕ) : ℝ) ^ k * (1 / 2) ^ 1074 := by positivity
    nlinarith
  have hfin : ∀ n : Nat, n < 2 ^ 53 → Finite (.num true (n * 2 ^ k)) := fun n hn => ⟨n, k, hn, by omega, rfl⟩
  intro t ht
  simp only [powVocab, List.mem_cons, List.not_mem_nil, or_false] at ht
  rcases ht with rfl | rfl | rfl
  · exact ⟨hfin 3 (by norm_num), hreal 3 (by omega)⟩
  · exact ⟨hfin 5 (by norm_num), hreal 5 (by omega)⟩
  · exact ⟨hfin 7 (by norm_num), hreal 7 (by omega)⟩

/-- Non-vacuity: the scores -3, -5, -7 and three quarters, five quarters, seven quarters of -1 give the same encodings. -/
example : (Model.from_ (powVocab 1072)).encode "abba".toList (.num false 0) (fun _ => .nan) =
    (Model.from_ (powVocab 1074)).encode "abba".toList (.num false 0) (fun _ => .nan) := by
  have htok : ∀ j k, (powVocab j).map (·.value) = (powVocab k).map (·.value) := fun _ _ => rfl
  refine C109_doubles 2 (powVocab 1072) (powVocab 1074) (fun t ht => (powVocab_ok 1072 (by omega) t ht).1) 7 (by norm_num)
    (powVocab_ok 1074 (by omega)) (htok _ _) ?_ _ (by decide) ?_ _ _ _ _ (by decide) (by decide)
  · intro i t u ht hu
    have hpow : ∀ (n : Nat) a b, b = a + 2 → n * 2 ^ b = n * 2 ^ a * 2 ^ 2 := fun n a b h => by rw [h, Nat.mul_assoc, ← Nat.pow_add]
    generalize ha : 1072 = a at ht
    generalize hb : 1074 = b at hu
    have h2 : b = a + 2 := by omega
    match i with
    | 0 => cases ht; cases hu; exact ⟨true, 3 * 2 ^ a, rfl, by rw [← hpow 3 a b h2]⟩
    | 1 => cases ht; cases hu; exact ⟨true, 5 * 2 ^ a, rfl, by rw [← hpow 5 a b h2]⟩
    | 2 => cases ht; cases hu; exact ⟨true, 7 * 2 ^ a, rfl, by rw [← hpow 7 a b h2]⟩
    | i + 3 => exact absurd ht (by simp [powVocab])
  · have : (enc "abba".toList).length = 4 := by decide
    rw [this]
    calc ((4 : ℕ) + 1 : ℝ) * 7 ≤ 2 ^ 6 := by norm_num
      _ ≤ 2 ^ 999 := pow_le_pow_right₀ (by norm_num) (by norm_num)

end Tokengeex

import Verif.Spec.EMF64
import Verif.Proofs.DigammaF64
import Verif.Proofs.Merge
import Verif.Props.GenerateF64
/-
The M-step with doubles (C80).
-/
namespace Tokengeex
open Spec ScoreOps RealOps
namespace Pruner
open F64

theorem half_exact {M N : Nat} (h : M = N + 1) {m : Nat} (hm : m < 2 ^ 53) : roundMag (m * 2 ^ M * 2 ^ M) (2 * 2 ^ M) = m * 2 ^ N := by
  subst h
  refine roundMag_exact (Nat.mul_pos (by omega) (Nat.pow_pos (by omega))) hm ?_
  rw [Nat.pow_succ]
  ring

theorem half_real {M N : Nat} (h : M = N + 1) {m : Nat} : ((m * 2 ^ N : Nat) : ℝ) * (1 / 2) ^ M = m / 2 := by
  subst h
  rw [Nat.cast_mul, Nat.cast_pow, Nat.cast_ofNat, pow_succ, ← mul_assoc, mul_assoc (m : ℝ), unit_mul]
  ring

theorem half_whole {m : Nat} (hm : m < 2 ^ 53) (hlt : m * 2 ^ 1073 < limit) : F64.div (whole m) (whole 2) = F64.num false (m * 2 ^ 1073) := by
  have h := half_exact (M := 1074) (N := 1073) (by norm_num) hm
  unfold whole
  rw [div_mags _ _ (Nat.mul_ne_zero (by norm_num) (Nat.pow_pos (by omega)).ne')]
  unfold F64.round
  rw [h, if_pos hlt]

theorem half_finite {m : Nat} (hm : m < 2 ^ 53) : Spec.Finite (F64.num false (m * 2 ^ 1073)) := ⟨m, 1073, hm, by norm_num, rfl⟩

theorem half_value (m : Nat) : real (F64.num false (m * 2 ^ 1073)) = m / 2 := by
  rw [real_sgn, half_real (by norm_num)]
  simp [sgn]

theorem threshold_real [Elementary] : Spec.Finite (threshold : F64) ∧ real (threshold : F64) = 1 / 2 := by
  have e1 : (RealOps.ofNat 1 : F64) = whole 1 := ofNat_whole (by norm_num)
  have e2 : (RealOps.ofNat 2 : F64) = whole 2 := ofNat_whole (by norm_num)
  have hlt : 1 * 2 ^ 1073 < limit := by rw [Nat.one_mul]; exact pow_lt_limit (by norm_num)
  have e : (threshold : F64) = F64.num false (1 * 2 ^ 1073) := by
    unfold threshold
    rw [e1, e2]
    exact half_whole (by norm_num) hlt
  have h1 := half_finite (m := 1) (by norm_num)
  have h2 := half_value 1
  rw [Nat.cast_one] at h2
  rw [e]
  exact ⟨h1, h2⟩

theorem max_real {x y : F64} (hx : Spec.Finite x) (hy : Spec.Finite y) :
    Spec.Finite (F64.max x y) ∧ real (F64.max x y) = max (real x) (real y) := by
  have nx : F64.isNan x = false := by cases x <;> first | rfl | exact hx.elim
  have ny : F64.isNan y = false := by cases y <;> first | rfl | exact hy.elim
  unfold F64.max
  rw [nx, ny, if_neg (by simp), if_neg (by simp)]
  by_cases h : F64.lt x y = true
  · rw [if_pos h]
    exact ⟨hy, (max_eq_right (lt_real hx hy h).le).symm⟩
  · rw [if_neg h]
    exact ⟨hx, (max_eq_left (real_lt hx hy (by simpa using h))).symm⟩

set_option linter.constructorNameAsVariable false in
/-- The tokens with their frequencies that the M-step keeps. -/
theorem alternativeVocab_doubles [Elementary] : ∀ (vocab : List (ScoredToken F64)) (freqs : List F64), (∀ f ∈ freqs, Spec.Finite f) →
    List.Forall₂ (fun (p : ScoredToken F64 × ℝ) t => Rescored p.1 t ∧ Spec.Finite t.score ∧ real t.score = max p.2 (1 / 2))
      (keptBy vocab (freqs.map real)) (alternativeVocab vocab freqs) := by
  obtain ⟨th1, th2⟩ := threshold_real
  unfold alternativeVocab
  generalize (threshold : F64) = th at *
  intro vocab
  induction vocab with
  | nil => intro freqs _; simp [keptBy]
  | cons t vocab ih =>
    intro freqs hf
    cases freqs with
    | nil => simp [keptBy]
    | cons f freqs =>
      have ih := ih freqs (fun g hg => hf g (List.mem_cons_of_mem _ hg))
      have hff := hf f List.mem_cons_self
      have hnew : Rescored t (t.cloneWithScore (TrainOps.max f th)) ∧ Spec.Finite (t.cloneWithScore (TrainOps.max f th)).score ∧
          real (t.cloneWithScore (TrainOps.max f th)).score = max (real f) (1 / 2) := by
        obtain ⟨m1, m2⟩ := max_real hff th1
        rw [th2] at m2
        exact ⟨⟨rfl, rfl⟩, m1, m2⟩
      unfold keptBy at *
      rw [List.map_cons, List.zip_cons_cons, List.zip_cons_cons, List.filterMap_cons, List.filter_cons]
      by_cases hk : t.keep = true
      · simp only [hk, Bool.not_true, Bool.and_false, Bool.true_or, if_true]
        exact .cons hnew ih
      · by_cases hlt : ScoreOps.lt f th = true
        · have h1 := lt_real hff th1 hlt
          rw [th2] at h1
          have h2 : ¬ (1 / 2 ≤ real f) := not_le.2 h1
          simp only [hk, hlt, h2, decide_false, Bool.or_false, Bool.false_eq_true, if_false, Bool.not_false, Bool.and_true, if_true]
          exact ih
        · have h1 := real_lt hff th1 (Bool.eq_false_iff.2 hlt)
          rw [th2] at h1
          simp only [hlt, Bool.false_and, h1, decide_true, Bool.or_true, if_true, Bool.false_eq_true, if_false]
          exact .cons hnew ih

theorem digammaLoop_whole [Elementary] (j : Nat) : j ≤ 7 → ∀ r : F64, ∃ p, digammaLoop (j + 1) r (whole (7 - j)) = .ok p := by
  have e7 : (RealOps.ofNat 7 : F64) = whole 7 := ofNat_whole (by norm_num)
  induction j with
  | zero =>
    intro _ r
    refine ⟨(r, whole 7), ?_⟩
    rw [digammaLoop, e7, if_neg]
    intro h
    exact lt_irrefl _ (lt_real (whole_finite (by norm_num)) (whole_finite (by norm_num)) h)
  | succ j ih =>
    intro hj r
    rw [digammaLoop, e7]
    by_cases hlt : ScoreOps.lt (whole (7 - (j + 1))) (whole 7) = true
    · rw [if_pos hlt]
      have e : ScoreOps.add (whole (7 - (j + 1))) (RealOps.ofNat 1) = whole (7 - j) := by
        have e1 : (RealOps.ofNat 1 : F64) = whole 1 := ofNat_whole (by norm_num)
        rw [e1]
        refine (add_whole (by omega)).trans ?_
        rw [show 7 - (j + 1) + 1 = 7 - j by omega]
      rw [e]
      exact ih (by omega) _
    · rw [if_neg hlt]
      exact ⟨_, rfl⟩

theorem digamma_zero [Elementary] {fuel : Nat} (hf : 8 ≤ fuel) : ∃ d, digamma fuel (zero : F64) = .ok d := by
  have e : (zero : F64) = whole 0 := by
    unfold whole
    rw [Nat.zero_mul]
    rfl
  obtain ⟨p, hp⟩ := digammaLoop_whole 7 (Nat.le_refl _) (RealOps.ofNat 0)
  rw [e, digamma, digammaLoop_more 8 fuel _ _ _ hf hp]
  exact ⟨_, rfl⟩

theorem pow_lower (n : Nat) : 1 - n * u ≤ (1 - u) ^ n := by
  have := one_add_mul_le_pow (a := -u) (by have := u_le; linarith) n
  rw [← sub_eq_add_neg] at this
  linarith

theorem pow_upper (n : Nat) (hn : n ≤ 2 ^ 24) : (1 + u) ^ n ≤ 1 + 2 * (n * u) := by
  have h1 := pow_lower n
  have hu := u_pos
  have hu1 : u ≤ 1 := u_le.trans (by norm_num)
  have h2 : (n : ℝ) * u ≤ 1 / 2 := by
    have : (n : ℝ) ≤ 2 ^ 24 := by exact_mod_cast hn
    have h3 : (2 : ℝ) ^ 24 * u ≤ 1 / 2 := by unfold u; norm_num
    have := mul_le_mul_of_nonneg_right this hu.le
    linarith
  have h3 : (1 + u) ^ n * (1 - u) ^ n ≤ 1 := by
    rw [← mul_pow]
    refine pow_le_one₀ (mul_nonneg (by linarith) (by linarith)) ?_
    nlinarith
  have h4 : 0 < (1 + u) ^ n := by positivity
  have h5 : (1 + u) ^ n * (1 - n * u) ≤ 1 := (mul_le_mul_of_nonneg_left h1 h4.le).trans h3
  have h6 : 1 ≤ (1 + 2 * (n * u)) * (1 - n * u) := by
    have : 0 ≤ (n : ℝ) * u := by positivity
    nlinarith
  have h7 : 0 < 1 - (n : ℝ) * u := by linarith
  exact le_of_mul_le_mul_right (h5.trans h6) h7

theorem product_limit {S P : ℝ} (hS : S ≤ 2 ^ 98) (hP0 : 0 ≤ P) (hP : P ≤ 2) : S * P ≤ 2 ^ 1000 := by
  have h1 : S * P ≤ 2 ^ 98 * 2 := mul_le_mul hS hP hP0 (by positivity)
  have h3 : (2 : ℝ) ^ 98 * 2 ≤ 2 ^ 100 := by norm_num
  exact le_trans (le_trans h1 h3) pow_big

/-- Sums of at most `2^24` doubles that are not negative. -/
theorem sum_doubles (xs : List F64) (hx : ∀ x ∈ xs, Spec.Finite x ∧ 0 ≤ real x) (hn : xs.length ≤ 2 ^ 24) (hB : (xs.map real).sum ≤ 2 ^ 98) :
    Spec.Finite (xs.foldl ScoreOps.add zero) ∧ |real (xs.foldl ScoreOps.add zero) - (xs.map real).sum| ≤ (1 / 2) ^ 28 * (xs.map real).sum := by
  have z1 : Spec.Finite (zero : F64) := ⟨0, 0, by norm_num, by norm_num, rfl⟩
  have z2 : real (zero : F64) = 0 := by show real (F64.num false 0) = 0; rw [real_sgn]; simp
  have hS0 : 0 ≤ (xs.map real).sum := by
    apply List.sum_nonneg
    intro x hx'
    obtain ⟨y, hy, rfl⟩ := List.mem_map.1 hx'
    exact (hx y hy).2
  have hup := pow_upper xs.length hn
  have hlo := pow_lower xs.length
  have hu := u_pos
  have h2 : (xs.length : ℝ) * u ≤ (1 / 2) ^ 29 := by
    have : (xs.length : ℝ) ≤ 2 ^ 24 := by exact_mod_cast hn
    have h3 : (2 : ℝ) ^ 24 * u = (1 / 2) ^ 29 := by unfold u; norm_num
    have := mul_le_mul_of_nonneg_right this hu.le
    linarith
  have h28 : 2 * ((1 : ℝ) / 2) ^ 29 = (1 / 2) ^ 28 := by norm_num
  have h28' : ((1 : ℝ) / 2) ^ 28 ≤ 1 := by norm_num
  have h29 : 0 < ((1 : ℝ) / 2) ^ 29 := by positivity
  generalize ((1 : ℝ) / 2) ^ 29 = q at *
  rw [← h28] at h28' ⊢
  have hle : (0 + (xs.map real).sum) * (1 + u) ^ xs.length ≤ 2 ^ 1000 := by
    rw [zero_add]
    exact product_limit hB (pow_nonneg (by linarith) _) (by linarith)
  obtain ⟨g1, g2, g3⟩ := foldl_rel xs zero hx z1 (by rw [z2]) (by rw [z2]; exact hle)
  rw [z2, zero_add] at g2 g3
  refine ⟨g1, ?_⟩
  generalize (xs.map real).sum = S at *
  have h5 : S * (1 + u) ^ xs.length ≤ S * (1 + 2 * q) := mul_le_mul_of_nonneg_left (by linarith) hS0
  have h6 : S * (1 - 2 * q) ≤ S * (1 - u) ^ xs.length := mul_le_mul_of_nonneg_left (by linarith) hS0
  have g2' : S * (1 - 2 * q) ≤ real (xs.foldl ScoreOps.add zero) := h6.trans g2
  have g3' : real (xs.foldl ScoreOps.add zero) ≤ S * (1 + 2 * q) := le_trans g3 h5
  rw [abs_le]
  constructor <;> linarith

theorem psi_range {x : ℝ} (h0 : 7 / 16 ≤ x) (hB : x ≤ 2 ^ 99) : |psi x| ≤ 100 := by
  have hx : 0 < x := by linarith
  have h1 := psi_le_log hx
  have h2 := log_le_psi hx
  have h3 := Real.one_sub_inv_le_log_of_pos hx
  have h4 : x⁻¹ ≤ 16 / 7 := by
    rw [inv_le_comm₀ hx (by norm_num)]
    linarith
  have h5 : Real.log x ≤ 100 := by
    have h6 := Real.log_le_log hx hB
    rw [Real.log_pow] at h6
    have h7 := Real.log_le_sub_one_of_pos (show (0 : ℝ) < 2 by norm_num)
    push_cast at h6
    linarith
  rw [one_div] at h2
  rw [abs_le]
  constructor <;> linarith

/-- The digamma function of two numbers of small relative difference. -/
theorem psi_relative {S T : ℝ} (hS : 1 / 2 ≤ S) (h : |T - S| ≤ (1 / 2) ^ 28 * S) : 7 / 16 ≤ T ∧ |psi T - psi S| ≤ 5 / 100000000 := by
  have hq : ((1 : ℝ) / 2) ^ 28 ≤ 4 / 1000000000 := by norm_num
  have hq0 : 0 < ((1 : ℝ) / 2) ^ 28 := by positivity
  generalize ((1 : ℝ) / 2) ^ 28 = q at *
  obtain ⟨h1, h2⟩ := abs_le.1 h
  have hT : 7 / 16 ≤ T := by nlinarith
  refine ⟨hT, ?_⟩
  have hqS := mul_le_mul_of_nonneg_right hq (show 0 ≤ S by linarith)
  rcases le_total S T with hle | hle
  · have p1 := psi_mono (by linarith) hle
    have p2 := psi_lip (by linarith) hle
    rw [abs_of_nonneg (by linarith)]
    refine p2.trans ?_
    rw [div_le_iff₀ (by linarith)]
    linarith
  · have p1 := psi_mono (by linarith) hle
    have p2 := psi_lip (by linarith) hle
    rw [abs_of_nonpos (by linarith), neg_sub]
    refine p2.trans ?_
    rw [div_le_iff₀ (by linarith)]
    linarith

theorem finite_not_nan {x : F64} (h : Spec.Finite x) : F64.isNan x = false ∧ F64.isInfinite x = false := by
  cases x with
  | nan => exact h.elim
  | inf s => exact h.elim
  | num s n => exact ⟨rfl, rfl⟩

end Pruner

/-! ### C80 -/

/-- **C80** (digamma, doubles) If `ln` is computed up to 2⁻⁴⁰, the implemented digamma function returns a finite number for every
double from 1/2 to 2⁹⁹, after at most eight rounds of its loop, and it is the value of the digamma function up to 2·10⁻¹⁰. -/
theorem C80_digamma_doubles [Elementary] {ε : ℝ} (L : LnWithin ε) (hε : ε ≤ (1 / 2) ^ 40) (x : F64) (hx : Spec.Finite x)
    (h0 : 1 / 2 ≤ real x) (hB : real x ≤ 2 ^ 99) :
    ∃ d : F64, (∀ fuel ≥ 8, Pruner.digamma fuel x = .ok d) ∧ Spec.Finite d ∧ |real d - psi (real x)| ≤ 2 / 10000000000 := by
  obtain ⟨d, h1, h2, h3⟩ := Pruner.digamma_doubles L hε hx (by linarith) hB
  exact ⟨d, h1, h2, h3⟩

open F64 in
theorem Pruner.score_doubles [Elementary] {ε : ℝ} (L : LnWithin ε) (hε : ε ≤ (1 / 2) ^ 40) {x t l : F64} {S : ℝ} (hx : Spec.Finite x)
    (h0 : 1 / 2 ≤ real x) (hB : real x ≤ 2 ^ 98) (hS : 1 / 2 ≤ S) (hSB : S ≤ 2 ^ 98) (hT : |real t - S| ≤ (1 / 2) ^ 28 * S)
    (hl : Near l (psi (real t)) (2 / 10000000000)) :
    ∃ d : F64, (∀ fuel ≥ 8, digamma fuel x = .ok d) ∧ Spec.Finite (F64.sub d l) ∧
      |real (F64.sub d l) - (psi (real x) - psi S)| ≤ 1 / 10000000 := by
  have big : (2 : ℝ) ^ 98 ≤ 2 ^ 99 := by norm_num
  obtain ⟨d, h1, h2⟩ := digamma_doubles L hε hx (by linarith) (by linarith)
  obtain ⟨t0, t1⟩ := psi_relative hS hT
  have p1 := psi_range (x := real x) (by linarith) (by linarith)
  have p2 := psi_range (x := S) (by linarith) (by linarith)
  obtain ⟨a1, a2⟩ := abs_le.1 p1
  obtain ⟨a3, a4⟩ := abs_le.1 p2
  obtain ⟨a5, a6⟩ := abs_le.1 t1
  have s := h2.sub hl (B := 300) (by
    have : |psi (real x) - psi (real t)| ≤ 250 := by rw [abs_le]; constructor <;> linarith
    linarith) (by norm_num)
  refine ⟨d, h1, s.1, ?_⟩
  have hu : u ≤ 1 / 100000000000000 := by unfold u; norm_num
  obtain ⟨a7, a8⟩ := abs_le.1 s.2
  rw [abs_le]
  constructor <;> linarith

/-- **C80** (M-step, doubles) If `ln` is computed up to 2⁻⁴⁰ and there are at most 2²⁴ tokens, each with a finite expected frequency
of at most 2⁶⁴, the M-step does not panic.  It keeps exactly the protected tokens and those expected at least half a time, in their
order, and gives each a finite score, `ψ(f) - ψ(total)` up to 10⁻⁷. -/
theorem C80_m_step_doubles [Elementary] {ε : ℝ} (L : LnWithin ε) (hε : ε ≤ (1 / 2) ^ 40) (vocab : List (ScoredToken F64)) (freqs : List F64)
    (hlen : freqs.length = vocab.length) (hn : vocab.length ≤ 2 ^ 24) (hfreq : ∀ f ∈ freqs, Spec.Finite f ∧ real f ≤ 2 ^ 64)
    (fuel : Nat) (hf : 8 ≤ fuel) :
    ∃ w, Pruner.mStep (Model.from_ vocab) freqs fuel = .ok w ∧ ReestimatedDoubles vocab (freqs.map real) w := by
  have hrel := Pruner.alternativeVocab_doubles vocab freqs (fun f hf => (hfreq f hf).1)
  unfold Pruner.mStep
  rw [Model.vocabSize, Model.from_vocab, if_neg (by omega)]
  have hkn : (keptBy vocab (freqs.map real)).length ≤ 2 ^ 24 := by
    refine (List.length_filter_le _ _).trans ?_
    rw [List.length_zip, List.length_map]
    omega
  have hkB : ∀ p ∈ keptBy vocab (freqs.map real), max p.2 (1 / 2) ≤ 2 ^ 64 := by
    intro p hp
    have h1 := (List.mem_filter.1 hp).1
    obtain ⟨f, hf1, hf2⟩ := List.mem_map.1 (List.of_mem_zip (a := p.1) (b := p.2) h1).2
    rw [← hf2]
    exact max_le (hfreq f hf1).2 (by norm_num)
  unfold ReestimatedDoubles
  generalize keptBy vocab (freqs.map real) = kept at *
  generalize Pruner.alternativeVocab vocab freqs = alt at *
  dsimp only
  have hsum : ∀ (kept : List (ScoredToken F64 × ℝ)) (alt : List (ScoredToken F64)),
      List.Forall₂ (fun (p : ScoredToken F64 × ℝ) t => Rescored p.1 t ∧ Spec.Finite t.score ∧ real t.score = max p.2 (1 / 2)) kept alt →
      ((alt.map (·.score)).map real) = kept.map fun p => max p.2 (1 / 2) := by
    intro kept alt h
    induction h with
    | nil => rfl
    | cons h1 _ ih => simp only [List.map_cons, ih, h1.2.2]
  have hS := hsum kept alt hrel
  have halt : ∀ t ∈ alt, Spec.Finite t.score ∧ 1 / 2 ≤ real t.score ∧ real t.score ≤ 2 ^ 64 := by
    intro t ht
    have h := List.forall₂_iff_get.1 hrel
    obtain ⟨p, hp, h1, h2, h3⟩ : ∃ p ∈ kept, Rescored p.1 t ∧ Spec.Finite t.score ∧ real t.score = max p.2 (1 / 2) := by
      obtain ⟨i, hi, rfl⟩ := List.getElem_of_mem ht
      exact ⟨_, List.getElem_mem _, h.2 i (by rw [h.1]; exact hi) hi⟩
    exact ⟨h2, by rw [h3]; exact le_max_right _ _, by rw [h3]; exact hkB p hp⟩
  have hlenA : alt.length = kept.length := hrel.length_eq.symm
  cases kept with
  | nil =>
    have : alt = [] := by simpa using hlenA
    subst this
    obtain ⟨d, hd⟩ := Pruner.digamma_zero (fuel := fuel) hf
    refine ⟨[], ?_, .nil⟩
    show (Pruner.digamma fuel zero >>= _) = _
    rw [hd]
    rfl
  | cons p0 kept =>
    generalize hK : p0 :: kept = K at *
    have hS0 : 1 / 2 ≤ (K.map fun p => max p.2 (1 / 2)).sum := by
      rw [← hK, List.map_cons, List.sum_cons]
      have : 0 ≤ (kept.map fun p => max p.2 (1 / 2)).sum := by
        apply List.sum_nonneg
        intro x hx
        obtain ⟨q, _, rfl⟩ := List.mem_map.1 hx
        exact le_trans (by norm_num) (le_max_right _ _)
      have := le_max_right p0.2 (1 / 2 : ℝ)
      linarith
    have hSB : (K.map fun p => max p.2 (1 / 2)).sum ≤ 2 ^ 98 := by
      have h1 : (K.map fun p => max p.2 (1 / 2)).sum ≤ (K.map fun p => max p.2 (1 / 2)).length • (2 : ℝ) ^ 64 := by
        apply List.sum_le_card_nsmul
        intro x hx
        obtain ⟨q, hq, rfl⟩ := List.mem_map.1 hx
        exact hkB q hq
      rw [List.length_map, nsmul_eq_mul] at h1
      have h2 : (K.length : ℝ) ≤ 2 ^ 24 := by exact_mod_cast hkn
      have h3 := mul_le_mul_of_nonneg_right h2 (show (0 : ℝ) ≤ 2 ^ 64 by positivity)
      have h4 : (2 : ℝ) ^ 24 * 2 ^ 64 ≤ 2 ^ 98 := by norm_num
      linarith
    obtain ⟨g1, g2⟩ := Pruner.sum_doubles (alt.map (·.score)) (by
      intro x hx
      obtain ⟨t, ht, rfl⟩ := List.mem_map.1 hx
      obtain ⟨i1, i2, _⟩ := halt t ht
      exact ⟨i1, by linarith⟩) (by rw [List.length_map, hlenA]; exact hkn) (by rw [hS]; exact hSB)
    rw [hS] at g2
    generalize (alt.map (·.score)).foldl ScoreOps.add zero = T at *
    generalize (K.map fun p => max p.2 (1 / 2)).sum = S at *
    obtain ⟨t0, t1⟩ := Pruner.psi_relative hS0 g2
    have hT99 : real T ≤ 2 ^ 99 := by
      obtain ⟨_, h2⟩ := abs_le.1 g2
      have h3 : ((1 : ℝ) / 2) ^ 28 * S ≤ 1 * S := mul_le_mul_of_nonneg_right (by norm_num) (by linarith)
      have h4 : (2 : ℝ) ^ 98 + 2 ^ 98 ≤ 2 ^ 99 := by norm_num
      linarith
    obtain ⟨l, l1, l2⟩ := Pruner.digamma_doubles L hε g1 t0 hT99
    have hsc : ∀ t : ScoredToken F64, ∃ d : F64, t ∈ alt → (Pruner.digamma fuel t.score = .ok d ∧ Spec.Finite (F64.sub d l) ∧
        |real (F64.sub d l) - (psi (real t.score) - psi S)| ≤ 1 / 10000000) := by
      intro t
      by_cases ht : t ∈ alt
      · obtain ⟨i1, i2, i3⟩ := halt t ht
        obtain ⟨d, d1, d2, d3⟩ := Pruner.score_doubles L hε i1 i2 (i3.trans (by norm_num)) hS0 hSB g2 l2
        exact ⟨d, fun _ => ⟨d1 fuel hf, d2, d3⟩⟩
      · exact ⟨F64.nan, fun h => absurd h ht⟩
    choose D hD using hsc
    refine ⟨(alt.zip (alt.map fun t => F64.sub (D t) l)).map fun p => p.1.cloneWithScore p.2, ?_, ?_⟩
    · show (Pruner.digamma fuel T >>= _) = _
      rw [l1 fuel hf]
      simp only [res_bind_ok]
      rw [mapM_ok_map _ (fun t => F64.sub (D t) l) _ (by
        intro t ht
        rw [(hD t ht).1]
        rfl)]
      simp only [res_bind_ok]
      rw [if_neg]
      · rfl
      · rw [List.any_eq_true]
        rintro ⟨x, hx, hx2⟩
        obtain ⟨t, ht, rfl⟩ := List.mem_map.1 hx
        obtain ⟨n1, n2⟩ := Pruner.finite_not_nan (hD t ht).2.1
        have e1 : TrainOps.isNan (F64.sub (D t) l) = false := n1
        have e2 : TrainOps.isInfinite (F64.sub (D t) l) = false := n2
        rw [e1, e2] at hx2
        simp at hx2
    · have hD' : ∀ t ∈ alt, Spec.Finite (F64.sub (D t) l) ∧ |real (F64.sub (D t) l) - (psi (real t.score) - psi S)| ≤ 1 / 10000000 :=
        fun t ht => (hD t ht).2
      clear hD hK hS hkn hkB hlenA halt
      induction hrel with
      | nil => exact .nil
      | cons h1 _ ih =>
        refine .cons ⟨h1.1, ?_⟩ (ih (fun t ht => hD' t (List.mem_cons_of_mem _ ht)))
        rw [← h1.2.2]
        exact hD' _ List.mem_cons_self

/-- The hypotheses are met: of `a` (protected, not expected), `b` (expected 3 times) and `ab` (not expected) the first two stay. -/
example : ∃ (E : Elementary) (w : List (ScoredToken F64)),
    @Pruner.mStep F64 (@F64.instTrainOpsOfElementary E)
      (Model.from_ [⟨[97], F64.whole 0, true⟩, ⟨[98], F64.whole 0, false⟩, ⟨[97, 98], F64.whole 0, false⟩])
      [F64.whole 0, F64.whole 3, F64.whole 0] 8 = .ok w ∧ w.map (·.value) = [[97], [98]] := by
  obtain ⟨E, hE, _⟩ := ln_exists
  obtain ⟨w, h1, h2⟩ := @C80_m_step_doubles E _ hE (by norm_num)
    [⟨[97], F64.whole 0, true⟩, ⟨[98], F64.whole 0, false⟩, ⟨[97, 98], F64.whole 0, false⟩]
    [F64.whole 0, F64.whole 3, F64.whole 0] rfl (by norm_num) (by
      intro f hf
      have : ∀ n : Nat, n < 4 → Spec.Finite (F64.whole n) ∧ real (F64.whole n) ≤ 2 ^ 64 := by
        intro n hn
        refine ⟨F64.whole_finite (by omega), ?_⟩
        rw [F64.real_whole]
        have : (n : ℝ) < 4 := by exact_mod_cast hn
        exact this.le.trans (by norm_num)
      simp only [List.mem_cons, List.not_mem_nil, or_false] at hf
      rcases hf with rfl | rfl | rfl <;> exact this _ (by norm_num)) 8 (Nat.le_refl _)
  refine ⟨E, w, h1, ?_⟩
  unfold ReestimatedDoubles at h2
  simp only [List.map_cons, List.map_nil, F64.real_whole, keptBy, List.zip_cons_cons, List.zip_nil_right, List.filter_cons] at h2
  norm_num at h2
  cases h2 with
  | cons a h2 => cases h2 with
    | cons b h2 => cases h2; simp [a.1.1, b.1.1]

end Tokengeex

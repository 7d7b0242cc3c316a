import Verif.Spec.MarginalF64
import Verif.Proofs.DigammaF64
import Verif.Proofs.MarginalAny
/-
`log_sum_exp` with doubles.
-/
namespace Tokengeex
open Spec
namespace F64

/-- Changing both arguments by at most `e` changes the logarithm of the sum of the exponentials by at most `e`. -/
theorem log_add_exp_lip {a b c d e : ℝ} (h1 : |c - a| ≤ e) (h2 : |d - b| ≤ e) :
    |Real.log (Real.exp c + Real.exp d) - Real.log (Real.exp a + Real.exp b)| ≤ e := by
  have key : ∀ {a b c d : ℝ}, c - a ≤ e → d - b ≤ e →
      Real.log (Real.exp c + Real.exp d) - Real.log (Real.exp a + Real.exp b) ≤ e := by
    intro a b c d h1 h2
    have h3 : Real.exp c + Real.exp d ≤ (Real.exp a + Real.exp b) * Real.exp e := by
      rw [add_mul, ← Real.exp_add, ← Real.exp_add]
      exact add_le_add (Real.exp_le_exp.2 (by linarith)) (Real.exp_le_exp.2 (by linarith))
    have h4 := Real.log_le_log (by positivity) h3
    rw [Real.log_mul (by positivity) (Real.exp_pos _).ne', Real.log_exp] at h4
    linarith
  rw [abs_le] at h1 h2 ⊢
  constructor
  · have := key (a := c) (b := d) (c := a) (d := b) (by linarith) (by linarith)
    linarith
  · exact key (by linarith) (by linarith)

theorem log_add_exp (m v : ℝ) : Real.log (Real.exp m + Real.exp v) = v + Real.log (Real.exp (m - v) + 1) := by
  have : Real.exp m + Real.exp v = Real.exp v * (Real.exp (m - v) + 1) := by
    rw [mul_add, ← Real.exp_add, mul_one]
    congr 2
    ring
  rw [this, Real.log_mul (Real.exp_pos _).ne' (by positivity), Real.log_exp]

theorem log_one_add_le {q : ℝ} : 0 ≤ Real.log (Real.exp q + 1) ∧ Real.log (Real.exp q + 1) ≤ Real.exp q := by
  have h := Real.exp_pos q
  refine ⟨Real.log_nonneg (by linarith), ?_⟩
  have := Real.log_le_sub_one_of_pos (show 0 < Real.exp q + 1 by linarith)
  linarith

theorem exp_neg_49 : Real.exp (-49) ≤ 16 * u := by
  have h1 : (2 : ℝ) ≤ Real.exp 1 := by
    have := Real.add_one_le_exp (1 : ℝ)
    linarith
  have h2 : (2 : ℝ) ^ 49 ≤ Real.exp 49 := by
    have : Real.exp 49 = Real.exp 1 ^ 49 := by rw [← Real.exp_nat_mul]; norm_num
    rw [this]
    exact pow_le_pow_left₀ (by norm_num) h1 49
  rw [Real.exp_neg, inv_le_comm₀ (Real.exp_pos _) (by have := u_pos; positivity)]
  refine le_trans (le_of_eq ?_) h2
  unfold u
  norm_num

/-- Close arguments have close exponentials. -/
theorem exp_close {p q d : ℝ} (h : |p - q| ≤ d) (hd : d ≤ 1 / 2) : |Real.exp p - Real.exp q| ≤ 2 * d * Real.exp q := by
  have h0 : 0 ≤ d := le_trans (abs_nonneg _) h
  have hq := Real.exp_pos q
  have e : Real.exp p = Real.exp q * Real.exp (p - q) := by rw [← Real.exp_add]; congr 1; ring
  rw [e, show Real.exp q * Real.exp (p - q) - Real.exp q = (Real.exp (p - q) - 1) * Real.exp q by ring, abs_mul, abs_of_pos hq]
  refine mul_le_mul_of_nonneg_right ?_ hq.le
  rw [abs_le] at h ⊢
  constructor
  · have := Real.add_one_le_exp (p - q)
    linarith
  · have h1 : Real.exp (p - q) ≤ Real.exp d := Real.exp_le_exp.2 (by linarith)
    have h2 := Real.add_one_le_exp (-d)
    have h3 : Real.exp d * Real.exp (-d) = 1 := by rw [← Real.exp_add]; simp
    have h4 := Real.exp_pos d
    have h5 : Real.exp d * (1 - d) ≤ 1 := by
      rw [← h3]
      exact mul_le_mul_of_nonneg_left (by linarith) h4.le
    nlinarith

/-- The logarithms of numbers close to `Z ≥ 1`. -/
theorem log_close_abs {y Z d : ℝ} (hZ : 1 ≤ Z) (h : |y - Z| ≤ d) (hd : d ≤ 1 / 2) : 0 < y ∧ |Real.log y - Real.log Z| ≤ 2 * d := by
  rw [abs_le] at h
  have hy : 0 < y := by linarith
  have hZ0 : 0 < Z := by linarith
  refine ⟨hy, ?_⟩
  have h1 := Real.log_le_sub_one_of_pos (div_pos hy hZ0)
  have h2 := Real.log_le_sub_one_of_pos (div_pos hZ0 hy)
  rw [Real.log_div hy.ne' hZ0.ne'] at h1
  rw [Real.log_div hZ0.ne' hy.ne'] at h2
  have h3 : y / Z - 1 ≤ d := by
    rw [sub_le_iff_le_add, div_le_iff₀ hZ0]
    nlinarith
  have h4 : Z / y - 1 ≤ 2 * d := by
    rw [sub_le_iff_le_add, div_le_iff₀ hy]
    nlinarith
  rw [abs_le]
  constructor <;> linarith

theorem ofNat_real {n : Nat} (h : n < 2 ^ 53) : Spec.Finite (F64.ofNat n) ∧ real (F64.ofNat n) = n := by
  rw [ofNat_whole h]
  exact ⟨whole_finite h, real_whole n⟩

theorem nat_exists {n : Nat} (h : n < 2 ^ 53) : ∃ x : F64, Spec.Finite x ∧ real x = n := ⟨F64.ofNat n, ofNat_real h⟩

theorem one_exists : ∃ x : F64, Spec.Finite x ∧ real x = 1 := by
  obtain ⟨x, f1, r1⟩ := nat_exists (n := 1) (by norm_num)
  exact ⟨x, f1, r1.trans Nat.cast_one⟩

variable [Elementary]

theorem lnWithin_nonneg {ε : ℝ} (h : LnWithin ε) : 0 ≤ ε := by
  obtain ⟨x, f1, r1⟩ := one_exists
  exact le_trans (abs_nonneg _) (h x f1 (by rw [r1]; exact one_pos)).2

theorem expWithin_nonneg {η : ℝ} (h : ExpWithin η) : 0 ≤ η := by
  obtain ⟨x, f1, r1⟩ := one_exists
  exact le_trans (abs_nonneg _) (h x f1 (by rw [r1])).2

/-- The part of `log_sum_exp` after the arguments have been ordered. -/
def lseTail (c50 c1 m v : F64) : F64 :=
  if F64.lt (F64.add m c50) v then v
  else F64.add v (Elementary.ln (F64.add (Elementary.exp (F64.sub m v)) c1))

theorem near_lseTail {ε η M : ℝ} (hln : LnWithin ε) (hexp : ExpWithin η) (hε : ε ≤ 1 / 8) (hη : η ≤ 1 / 8) (hM : M ≤ 2 ^ 50)
    {c50 c1 : F64} (f50 : Spec.Finite c50) (r50 : real c50 = 50) (f1 : Spec.Finite c1) (r1 : real c1 = 1) {m v : F64} (hm : Spec.Finite m) (hv : Spec.Finite v) (hle : real m ≤ real v) (hmM : |real m| ≤ M + 1) (hvM : |real v| ≤ M + 1) :
    Near (lseTail c50 c1 m v) (Real.log (Real.exp (real m) + Real.exp (real v))) (ε + 2 * η + u * (M + 320)) := by
  have hu0 := u_pos
  have hu : u ≤ 1 / 1000000 := by unfold u; norm_num
  have hε0 := lnWithin_nonneg hln
  have hη0 := expWithin_nonneg hexp
  have hM1 : 0 ≤ M + 1 := le_trans (abs_nonneg _) hmM
  have huM : u * (M + 52) ≤ 1 := by
    have : u * (M + 52) ≤ u * (2 ^ 50 + 52) := mul_le_mul_of_nonneg_left (by linarith) hu0.le
    refine le_trans this ?_
    unfold u
    norm_num
  have hbig : (2 : ℝ) ^ 50 + 60 ≤ 2 ^ 100 := by norm_num
  have h50 : |real m + 50| + 0 + 0 ≤ M + 51 := by
    have := abs_add_le (real m) 50
    rw [abs_of_pos (show (0 : ℝ) < 50 by norm_num)] at this
    linarith
  have s1 : Near (F64.add m c50) (real m + 50) (0 + 0 + u * (M + 51)) := by
    have n50 := Pruner.near_self f50
    rw [r50] at n50
    exact Near.add (Pruner.near_self hm) n50 (B := M + 51) (by simpa using h50) (by linarith)
  obtain ⟨s1f, s1e⟩ := s1
  rw [abs_le] at s1e
  have hs1 : u * (M + 51) ≤ 1 := by nlinarith
  rw [log_add_exp]
  unfold lseTail
  by_cases hlt : F64.lt (F64.add m c50) v = true
  · rw [if_pos hlt]
    have h1 := lt_real s1f hv hlt
    have h2 : real m - real v ≤ -49 := by linarith
    refine ⟨hv, ?_⟩
    have h3 := log_one_add_le (q := real m - real v)
    have h4 := le_trans (Real.exp_le_exp.2 h2) exp_neg_49
    have h5 : u * 16 ≤ u * (M + 320) := mul_le_mul_of_nonneg_left (by linarith) hu0.le
    rw [abs_le]
    constructor <;> linarith
  · rw [if_neg hlt]
    have h1 := real_lt s1f hv (by simpa using hlt)
    have hq : -51 ≤ real m - real v := by linarith
    have hq0 : real m - real v ≤ 0 := by linarith
    have s2 : Near (F64.sub m v) (real m - real v) (0 + 0 + u * 51) :=
      Near.sub (Pruner.near_self hm) (Pruner.near_self hv) (B := 51) (by rw [abs_of_nonpos hq0]; linarith) (by norm_num)
    generalize real m - real v = q at *
    have hEq : Real.exp q ≤ 1 := by rw [← Real.exp_zero]; exact Real.exp_le_exp.2 hq0
    have hEq0 := Real.exp_pos q
    obtain ⟨s2f, s2e⟩ := s2
    have s2b := (abs_le.1 s2e).2
    obtain ⟨g1, g2⟩ := hexp _ s2f (by linarith)
    have g3 := exp_close s2e (by linarith)
    have s3 : Near (Elementary.exp (F64.sub m v)) (Real.exp q) (η + 102 * u) := by
      refine ⟨g1, ?_⟩
      have g4 := abs_add_le (real (Elementary.exp (F64.sub m v)) - Real.exp (real (F64.sub m v))) (Real.exp (real (F64.sub m v)) - Real.exp q)
      rw [sub_add_sub_cancel] at g4
      have g5 : 2 * (0 + 0 + u * 51) * Real.exp q ≤ 102 * u * 1 := by nlinarith
      linarith
    have n1 := Pruner.near_self f1
    rw [r1] at n1
    have s4 := Near.add s3 n1 (B := 3) (by
      rw [abs_of_pos (by linarith)]
      linarith) (by norm_num)
    obtain ⟨s4f, s4e⟩ := s4
    obtain ⟨p0, p1⟩ := log_close_abs (by linarith) s4e (by linarith)
    obtain ⟨g6, g7⟩ := hln _ s4f p0
    have hL := log_one_add_le (q := q)
    have s5 : Near (Elementary.ln (F64.add (Elementary.exp (F64.sub m v)) c1)) (Real.log (Real.exp q + 1))
        (ε + 2 * (η + 105 * u)) := by
      refine ⟨g6, ?_⟩
      have g8 := abs_add_le (real (Elementary.ln (F64.add (Elementary.exp (F64.sub m v)) c1)) -
        Real.log (real (F64.add (Elementary.exp (F64.sub m v)) c1)))
        (Real.log (real (F64.add (Elementary.exp (F64.sub m v)) c1)) - Real.log (Real.exp q + 1))
      rw [sub_add_sub_cancel] at g8
      linarith
    refine (Near.add (Pruner.near_self hv) s5 (B := M + 4) ?_ (by linarith)).mono ?_
    · have := abs_add_le (real v) (Real.log (Real.exp q + 1))
      rw [abs_of_nonneg hL.1] at this
      linarith
    · nlinarith

set_option linter.constructorNameAsVariable false in
/-- `log_sum_exp` of two approximations. -/
theorem near_lse {ε η M e : ℝ} (hln : LnWithin ε) (hexp : ExpWithin η) (hε : ε ≤ 1 / 8) (hη : η ≤ 1 / 8) (hM : M ≤ 2 ^ 50) {x y : F64} {a b : ℝ}
    (hx : Near x a e) (hy : Near y b e) (he : e ≤ 1) (ha : |a| ≤ M) (hb : |b| ≤ M) :
    Near (logSumExp x y false) (Real.log (Real.exp a + Real.exp b)) (e + (ε + 2 * η + u * (M + 320))) := by
  have bound : ∀ {x : F64} {a : ℝ}, Near x a e → |a| ≤ M → |real x| ≤ M + 1 := by
    intro x a hx ha
    have := abs_add_le a (real x - a)
    rw [add_sub_cancel] at this
    linarith [hx.2]
  have hxM := bound hx ha
  have hyM := bound hy hb
  have hval : Near (logSumExp x y false) (Real.log (Real.exp (real x) + Real.exp (real y))) (ε + 2 * η + u * (M + 320)) := by
    obtain ⟨f50, r50⟩ := ofNat_real (n := 50) (by norm_num)
    obtain ⟨f1, r1⟩ := ofNat_real (n := 1) (by norm_num)
    have hval0 : logSumExp x y false = if F64.lt y x then lseTail (F64.ofNat 50) (F64.ofNat 1) y x
        else lseTail (F64.ofNat 50) (F64.ofNat 1) x y := by
      unfold logSumExp
      rw [if_neg (by simp)]
      by_cases h : F64.lt y x = true
      · have h' : ScoreOps.lt y x = true := h
        rw [if_pos h]
        simp only [h', if_true]
        rfl
      · have h' : ScoreOps.lt y x = false := Bool.eq_false_iff.2 h
        rw [if_neg h]
        simp only [h', Bool.false_eq_true, if_false]
        rfl
    rw [hval0]
    rw [Nat.cast_ofNat] at r50
    rw [Nat.cast_one] at r1
    generalize F64.ofNat 50 = c50 at *
    generalize F64.ofNat 1 = c1 at *
    by_cases hlt : F64.lt y x = true
    · rw [if_pos hlt, add_comm (Real.exp (real x))]
      exact near_lseTail hln hexp hε hη hM f50 r50 f1 r1 hy.1 hx.1 (lt_real hy.1 hx.1 hlt).le hyM hxM
    · rw [if_neg hlt]
      exact near_lseTail hln hexp hε hη hM f50 r50 f1 r1 hx.1 hy.1 (real_lt hy.1 hx.1 (by simpa using hlt)) hxM hyM
  refine ⟨hval.1, ?_⟩
  have h1 := log_add_exp_lip hx.2 hy.2
  have := abs_add_le (real (logSumExp x y false) - Real.log (Real.exp (real x) + Real.exp (real y)))
    (Real.log (Real.exp (real x) + Real.exp (real y)) - Real.log (Real.exp a + Real.exp b))
  rw [sub_add_sub_cancel] at this
  linarith [hval.2]

/-- `log_sum_exp` over a list. -/
theorem near_lseFold {ε η M : ℝ} (hln : LnWithin ε) (hexp : ExpWithin η) (hε : ε ≤ 1 / 8) (hη : η ≤ 1 / 8) (hM : M ≤ 2 ^ 50)
    (f : Nat → F64) (g : Nat → ℝ) : ∀ (l : List Nat) (y : F64) (a e : ℝ), Near y a e → (∀ s ∈ l, Near (f s) (g s) e ∧ |g s| ≤ M) →
      -M ≤ a → Real.log (Real.exp a + (l.map fun s => Real.exp (g s)).sum) ≤ M →
      e + l.length * (ε + 2 * η + u * (M + 320)) ≤ 1 →
      Near (lseFold y (l.map f)) (Real.log (Real.exp a + (l.map fun s => Real.exp (g s)).sum)) (e + l.length * (ε + 2 * η + u * (M + 320))) := by
  intro l
  induction l with
  | nil =>
    intro y a e hy _ _ _ _
    simpa [lseFold] using hy
  | cons s l ih =>
    intro y a e hy hl ha hM' he
    obtain ⟨hs, hsM⟩ := hl s (by simp)
    have hsum : 0 ≤ (l.map fun s => Real.exp (g s)).sum := List.sum_nonneg (by
      intro x hx
      obtain ⟨b, _, rfl⟩ := List.mem_map.1 hx
      exact (Real.exp_pos _).le)
    have hea := Real.exp_pos a
    have heg := Real.exp_pos (g s)
    have he0 : 0 ≤ e := le_trans (abs_nonneg _) hy.2
    simp only [List.map_cons, List.sum_cons, List.length_cons, Nat.cast_add, Nat.cast_one] at hM' he ⊢
    have hM0 : 0 ≤ M := le_trans (abs_nonneg _) hsM
    have hd0 : 0 ≤ ε + 2 * η + u * (M + 320) := by
      have hu0 := u_pos
      have h1 := lnWithin_nonneg hln
      have h2 := expWithin_nonneg hexp
      have h3 := mul_nonneg hu0.le (show 0 ≤ M + 320 by linarith)
      linarith
    set d := ε + 2 * η + u * (M + 320) with hd
    have hld : 0 ≤ (l.length : ℝ) * d := mul_nonneg (Nat.cast_nonneg _) hd0
    have hle : Real.log (Real.exp a + Real.exp (g s)) ≤ M := by
      refine le_trans (Real.log_le_log (by positivity) ?_) hM'
      linarith
    have hge : a ≤ Real.log (Real.exp a + Real.exp (g s)) := by
      rw [Real.le_log_iff_exp_le (by positivity)]
      linarith
    have haM : |a| ≤ M := abs_le.2 ⟨ha, le_trans hge hle⟩
    have h1 := near_lse hln hexp hε hη hM hy hs (by linarith) haM hsM
    rw [← hd] at h1
    have h2 := ih (logSumExp y (f s) false) _ (e + d) h1 (fun t ht => ⟨(hl t (by simp [ht])).1.mono (by linarith), (hl t (by simp [ht])).2⟩)
      (by linarith) (by rw [Real.exp_log (by positivity)]; rw [← add_assoc] at hM'; exact hM') (by linarith)
    rw [Real.exp_log (by positivity)] at h2
    rw [← add_assoc]
    refine Near.mono h2 (by linarith)

end F64
end Tokengeex

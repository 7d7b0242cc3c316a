import Verif.Proofs.DigammaTailF64
/-
The implemented digamma function with doubles.
-/
namespace Tokengeex
open Spec ScoreOps

namespace Pruner
open F64 RealOps

theorem digammaLoop_more {F : Type} [TrainOps F] : ∀ (a b : Nat) (r y : F) (v : F × F), a ≤ b → digammaLoop a r y = .ok v →
    digammaLoop b r y = .ok v := by
  intro a
  induction a with
  | zero => intro b r y v _ h; simp [digammaLoop] at h
  | succ a ih =>
    intro b r y v hb h
    obtain ⟨b, rfl⟩ : ∃ k, b = k + 1 := ⟨b - 1, by omega⟩
    rw [digammaLoop] at h ⊢
    by_cases hlt : lt y (RealOps.ofNat 7) = true
    · rw [if_pos hlt] at h ⊢
      exact ih b _ _ v (by omega) h
    · rw [if_neg hlt] at h ⊢
      exact h

theorem near_self {x : F64} (h : Spec.Finite x) : Near x (real x) 0 := ⟨h, by simp⟩

set_option linter.constructorNameAsVariable false in
theorem loop_step {x r : F64} (hx : Spec.Finite x) (hr : Spec.Finite r) (h0 : 7 / 16 ≤ real x) (h7 : real x < 7) {B : ℝ} (hB : |real r| ≤ B)
    (hB' : B ≤ 20) : Near (F64.sub r (F64.div (F64.ofNat 1) x)) (real r - 1 / real x) (27 * u) ∧
      Near (F64.add x (F64.ofNat 1)) (real x + 1) (8 * u) ∧ |real (F64.sub r (F64.div (F64.ofNat 1) x))| ≤ B + 3 := by
  have e1 : real (F64.ofNat 1) = 1 := by rw [ofNat_whole (by norm_num), real_whole]; norm_num
  have f1 : Spec.Finite (F64.ofNat 1) := by rw [ofNat_whole (by norm_num)]; exact whole_finite (by norm_num)
  generalize F64.ofNat 1 = one at *
  have hu0 := u_pos
  have hu2 : u * 1000 ≤ 1 := by
    have : u ≤ 1 / 1000 := by unfold u; norm_num
    linarith
  have hq : 1 / real x ≤ 5 / 2 := by rw [div_le_iff₀ (by linarith)]; linarith
  have hq0 : 0 < 1 / real x := by positivity
  have d := near_div (B := 5 / 2) f1 hx (by linarith) (by rw [e1, abs_of_pos hq0]; exact hq) (by norm_num)
  rw [e1] at d
  have s := (near_self hr).sub d (B := 23) (by
    have := abs_sub (real r) (1 / real x)
    rw [abs_of_pos hq0] at this
    linarith) (by norm_num)
  have a := (near_self hx).add (near_self f1) (B := 8) (by rw [e1, abs_of_pos (by linarith)]; linarith) (by norm_num)
  rw [e1] at a
  refine ⟨s.mono (by linarith), a.mono (by linarith), ?_⟩
  have h1 := s.2
  have h2 := abs_sub (real r) (1 / real x)
  rw [abs_of_pos hq0] at h2
  have h3 := abs_add_le (real r - 1 / real x) (real (F64.sub r (F64.div one x)) - (real r - 1 / real x))
  rw [add_sub_cancel] at h3
  linarith

/-- The loop, with doubles: it keeps the difference between the result and the digamma function, up to rounding. -/
theorem digammaLoop_doubles [Elementary] (n : Nat) : ∀ x r : F64, Spec.Finite x → Spec.Finite r → 7 / 16 ≤ real x → real x ≤ 2 ^ 99 →
    7 - (n : ℝ) + n / 16 ≤ real x → n ≤ 7 → |real r| ≤ 21 - 3 * (n : ℝ) →
    ∃ p : F64 × F64, digammaLoop (n + 1) r x = .ok p ∧ Spec.Finite p.1 ∧ Spec.Finite p.2 ∧ |real p.1| ≤ 21 ∧ 7 ≤ real p.2 ∧ real p.2 ≤ 2 ^ 99 ∧
      |real p.1 + psi (real p.2) - (real r + psi (real x))| ≤ n * (70 * u) := by
  have e7 : (RealOps.ofNat 7 : F64) = whole 7 := ofNat_whole (by norm_num)
  have f7 : Spec.Finite (whole 7) := whole_finite (by norm_num)
  have r7 : real (whole 7) = 7 := by rw [real_whole]; norm_num
  have hu0 := u_pos
  have hu2 : u * 1000 ≤ 1 := by
    have : u ≤ 1 / 1000 := by unfold u; norm_num
    linarith
  induction n with
  | zero =>
    intro x r hx hr h0 hB h7 _ hrB
    have h7' : 7 ≤ real x := by simpa using h7
    refine ⟨(r, x), ?_, hr, hx, by simpa using hrB, h7', hB, by simp⟩
    rw [digammaLoop, e7, if_neg]
    intro hlt
    have := lt_real hx f7 hlt
    linarith
  | succ n ih =>
    intro x r hx hr h0 hB h7 hn hrB
    rw [Nat.cast_succ] at h7 hrB ⊢
    have hn' : (n : ℝ) ≤ 6 := by exact_mod_cast (by omega : n ≤ 6)
    rw [digammaLoop, e7]
    show ∃ p, (if F64.lt x (whole 7) = true then digammaLoop (n + 1) (F64.sub r (F64.div (F64.ofNat 1) x)) (F64.add x (F64.ofNat 1)) else _) = _ ∧ _
    by_cases hlt : F64.lt x (whole 7) = true
    · have hx7 := lt_real hx f7 hlt
      rw [r7] at hx7
      rw [if_pos hlt]
      obtain ⟨s1, s2, s3⟩ := loop_step hx hr h0 hx7 hrB (by linarith [Nat.cast_nonneg (α := ℝ) n])
      have s2' := s2.2
      rw [abs_le] at s2'
      have hbig : (9 : ℝ) ≤ 2 ^ 99 := by norm_num
      obtain ⟨p, g1, g2, g3, g4, g5, g6, g7⟩ := ih (F64.add x (F64.ofNat 1)) (F64.sub r (F64.div (F64.ofNat 1) x)) s2.1 s1.1
        (by linarith) (by linarith) (by linarith) (by omega) (by linarith)
      refine ⟨p, g1, g2, g3, g4, g5, g6, ?_⟩
      have c := psi_close (a := real x + 1) (b := real (F64.add x (F64.ofNat 1))) (by linarith) (by linarith)
      have c2 := psi_add_one (x := real x) (by linarith)
      have c3 := s1.2
      have c4 := s2.2
      have c5 : |psi (real (F64.add x (F64.ofNat 1))) - psi (real x + 1)| ≤ 40 * u := by linarith
      obtain ⟨i1, i2⟩ := abs_le.1 c5
      obtain ⟨i3, i4⟩ := abs_le.1 c3
      obtain ⟨i5, i6⟩ := abs_le.1 g7
      rw [abs_le]
      constructor <;> linarith
    · rw [if_neg hlt]
      have : F64.lt x (whole 7) = false := by simpa using hlt
      have := real_lt hx f7 this
      rw [r7] at this
      refine ⟨(r, x), rfl, hr, hx, by linarith [Nat.cast_nonneg (α := ℝ) n], this, hB, ?_⟩
      simp
      positivity

/-- The implemented digamma function with doubles. -/
theorem digamma_doubles [Elementary] {ε : ℝ} (L : LnWithin ε) (hε : ε ≤ (1 / 2) ^ 40) {x : F64} (hx : Spec.Finite x) (h0 : 7 / 16 ≤ real x)
    (hB : real x ≤ 2 ^ 99) : ∃ d : F64, (∀ fuel ≥ 8, digamma fuel x = .ok d) ∧ Near d (psi (real x)) (2 / 10000000000) := by
  have e0 : (RealOps.ofNat 0 : F64) = whole 0 := ofNat_whole (by norm_num)
  have f0 : Spec.Finite (whole 0) := whole_finite (by norm_num)
  have r0 : real (whole 0) = 0 := by rw [real_whole]; norm_num
  have hu0 := u_pos
  have hu2 : u * 1000000000000000 ≤ 1 := by
    have : u ≤ 1 / 1000000000000000 := by unfold u; norm_num
    linarith
  obtain ⟨p, g1, g2, g3, g4, g5, g6, g7⟩ := digammaLoop_doubles 7 x (whole 0) hx f0 h0 hB (by norm_num; linarith) (by omega)
    (by rw [r0]; norm_num)
  rw [r0] at g7
  obtain ⟨y1, y2⟩ := half_sub g3 g5 g6
  have t := near_tail L hε (Z := real p.2 - 1 / 2) y1 (by linarith) (le_trans (by linarith : real p.2 - 1 / 2 ≤ 2 ^ 99) (by norm_num)) y2
  have hT : Real.log (real p.2 - 1 / 2) + 1 / 24 * (1 / (real p.2 - 1 / 2) * (1 / (real p.2 - 1 / 2))) - 7 / 960 * (1 / (real p.2 - 1 / 2) * (1 / (real p.2 - 1 / 2)) * (1 / (real p.2 - 1 / 2) * (1 / (real p.2 - 1 / 2)))) +
        31 / 8064 * (1 / (real p.2 - 1 / 2) * (1 / (real p.2 - 1 / 2)) * (1 / (real p.2 - 1 / 2) * (1 / (real p.2 - 1 / 2)))) * (1 / (real p.2 - 1 / 2) * (1 / (real p.2 - 1 / 2))) -
        127 / 30720 * (1 / (real p.2 - 1 / 2) * (1 / (real p.2 - 1 / 2)) * (1 / (real p.2 - 1 / 2) * (1 / (real p.2 - 1 / 2)))) * (1 / (real p.2 - 1 / 2) * (1 / (real p.2 - 1 / 2)) * (1 / (real p.2 - 1 / 2) * (1 / (real p.2 - 1 / 2)))) = digTail (real p.2) := by
    unfold digTail digSeries
    ring
  rw [hT] at t
  obtain ⟨q1, q2⟩ := psi_tail g5
  have q3 := tailErr_small g5
  have hlog := log_bound (Z := real p.2 - 1 / 2) (by linarith) (le_trans (by linarith : real p.2 - 1 / 2 ≤ 2 ^ 99) (by norm_num))
  have hser := digSeries_bounds (q := 1 / (real p.2 - 1 / 2) * (1 / (real p.2 - 1 / 2))) (mul_self_nonneg _) (by
    have h1 : 1 / (real p.2 - 1 / 2) ≤ 1 / 6 := one_div_le_one_div_of_le (by norm_num) (by linarith)
    have h2 : 0 < 1 / (real p.2 - 1 / 2) := one_div_pos.2 (by linarith)
    nlinarith)
  have hser2 : 1 / (real p.2 - 1 / 2) * (1 / (real p.2 - 1 / 2)) ≤ 1 := by
    have h1 : 1 / (real p.2 - 1 / 2) ≤ 1 / 6 := one_div_le_one_div_of_le (by norm_num) (by linarith)
    have h2 : 0 < 1 / (real p.2 - 1 / 2) := one_div_pos.2 (by linarith)
    nlinarith
  have hdt : |digTail (real p.2)| ≤ 110 := by
    unfold digTail
    rw [abs_le]
    constructor <;> linarith
  have h39 : (1 / 2 : ℝ) ^ 39 ≤ 2 / 1000000000000 := by norm_num
  have a := (near_self g2).add (t.mono h39) (B := 200) (by
    have := abs_add_le (real p.1) (digTail (real p.2))
    linarith) (by norm_num)
  refine ⟨F64.add p.1 (tail (F64.sub p.2 (F64.div (F64.ofNat 1) (F64.ofNat 2)))), fun fuel hf => ?_, a.1, ?_⟩
  · rw [digamma, e0, digammaLoop_more 8 fuel _ _ _ hf g1]
    rfl
  · have a2 := a.2
    push_cast at g7
    obtain ⟨i1, i2⟩ := abs_le.1 a2
    obtain ⟨i5, i6⟩ := abs_le.1 g7
    rw [abs_le]
    constructor <;> linarith

end Pruner
end Tokengeex

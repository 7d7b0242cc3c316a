import Verif.Proofs.LseF64
import Verif.Props.MarginalF64
/-
C37 with doubles.
-/
namespace Tokengeex
open Spec

/-- **C37** (doubles) For finite doubles `x` and `y` of magnitude at most `M`, with `exp` and `ln` computed up to `η` and `ε`,
`log_sum_exp(x, y)` is a finite double that differs from `log (e^x + e^y)` by at most `ε + 2 η + (M + 320) / 2^53`; and it is
symmetric, except perhaps if the arguments are the two zeros. -/
theorem C37_doubles [Elementary] {ε η M : ℝ} (hln : LnWithin ε) (hexp : ExpWithin η) (hε : ε ≤ 1 / 8) (hη : η ≤ 1 / 8)
    (hM : M ≤ 2 ^ 50) (x y : F64) (hx : Finite x) (hy : Finite y) (hxM : |real x| ≤ M) (hyM : |real y| ≤ M) :
    Finite (logSumExp x y false) ∧
    |real (logSumExp x y false) - Real.log (Real.exp (real x) + Real.exp (real y))| ≤ ε + 2 * η + (M + 320) / 2 ^ 53 ∧
    (real x ≠ 0 ∨ real y ≠ 0 → logSumExp x y false = logSumExp y x false) := by
  have h := F64.near_lse hln hexp hε hη hM (Pruner.near_self hx) (Pruner.near_self hy) (by norm_num) hxM hyM
  refine ⟨h.1, ?_, ?_⟩
  · have h2 := h.2
    rw [zero_add] at h2
    have hu : F64.u * (M + 320) = (M + 320) / 2 ^ 53 := by unfold F64.u; ring
    rwa [hu] at h2
  · intro hz
    have hnx : x ≠ .nan := by rintro rfl; exact hx
    have hny : y ≠ .nan := by rintro rfl; exact hy
    by_cases heq : x.key = y.key
    · have : x = y := by
        cases x with
        | nan => exact absurd rfl hnx
        | inf s => exact hx.elim
        | num s n =>
          cases y with
          | nan => exact absurd rfl hny
          | inf s => exact hy.elim
          | num t m =>
            have hk : n = m ∧ (s = t ∨ n = 0) := by
              unfold F64.key at heq
              cases s <;> cases t <;> simp only [Bool.false_eq_true, if_false, if_true] at heq <;> constructor <;>
                first | (left; rfl) | omega
            obtain ⟨rfl, h2⟩ := hk
            rcases h2 with rfl | rfl
            · rfl
            · exfalso
              rcases hz with hz | hz <;> exact hz (by simp [real])
      rw [this]
    · have hor : (F64.lt x y = true ∧ F64.lt y x = false) ∨ (F64.lt x y = false ∧ F64.lt y x = true) := by
        rcases lt_or_gt_of_ne heq with h1 | h1
        · exact Or.inl ⟨(F64.lt_true hnx hny).2 h1, (F64.lt_false hny hnx).2 (le_of_lt h1)⟩
        · exact Or.inr ⟨(F64.lt_false hnx hny).2 (le_of_lt h1), (F64.lt_true hny hnx).2 h1⟩
      have e1 : ∀ a b : F64, ScoreOps.lt a b = F64.lt a b := fun _ _ => rfl
      unfold logSumExp
      rw [e1 y x, e1 x y]
      rcases hor with ⟨h1, h2⟩ | ⟨h1, h2⟩ <;> rw [h1, h2] <;> rfl

set_option linter.constructorNameAsVariable false in
/-- The hypotheses are met: there are `exp` and `ln` with errors below 2⁻⁴², and the sum of 1 and 1 is then `1 + log 2` up to 2⁻⁴⁰. -/
example : ∃ _E : Elementary, |real (logSumExp (F64.ofNat 1) (F64.ofNat 1) false) - Real.log (Real.exp 1 + Real.exp 1)| ≤ (1 / 2) ^ 40 := by
  obtain ⟨E, h1, _, h2⟩ := elementary_exists
  obtain ⟨f1, r1⟩ := F64.ofNat_real (n := 1) (by norm_num)
  rw [Nat.cast_one] at r1
  refine ⟨E, ?_⟩
  generalize F64.ofNat 1 = one at f1 r1
  have h := (C37_doubles h1 h2 (by norm_num) (by norm_num) (M := 1) (by norm_num) _ _ f1 f1 (by rw [r1]; norm_num) (by rw [r1]; norm_num)).2.1
  rw [r1] at h
  exact h.trans (by norm_num)

end Tokengeex

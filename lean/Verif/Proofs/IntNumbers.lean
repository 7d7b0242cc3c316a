import Verif.Spec.Serde
import Verif.Model.Number64
/-
A number format for the examples: whole numbers, printed with the fraction ".0".
-/
namespace Tokengeex
open Spec

theorem decimal_small {n : Nat} (h : n < 10) : decimal n = [n] := by rw [decimal, if_pos h]
theorem decimal_big {n : Nat} (h : ¬ n < 10) : decimal n = decimal (n / 10) ++ [n % 10] := by rw [decimal, if_neg h]

theorem decimal_digits (n : Nat) : (∀ d ∈ decimal n, d < 10) ∧ decimal n ≠ [] ∧
    (∀ more, decimal n = 0 :: more → more = [] ∧ n = 0) ∧ (decimal n).foldl (fun a d => 10 * a + d) 0 = n := by
  induction n using Nat.strongRecOn with
  | _ n ih =>
    by_cases h : n < 10
    · rw [decimal_small h]
      refine ⟨by simp [h], by simp, ?_, by simp⟩
      intro more hm
      injection hm with h1 h2
      exact ⟨h2.symm, h1⟩
    · obtain ⟨h1, h2, h3, h4⟩ := ih (n / 10) (by omega)
      rw [decimal_big h]
      refine ⟨?_, by simp, ?_, ?_⟩
      · intro d hd
        rcases List.mem_append.1 hd with hd | hd
        · exact h1 d hd
        · simp only [List.mem_singleton] at hd; omega
      · intro more hm
        cases hd : decimal (n / 10) with
        | nil => exact absurd hd h2
        | cons d ds =>
          rw [hd, List.cons_append] at hm
          injection hm with h5 h6
          have := (h3 ds (by rw [hd, h5])).2
          omega
      · rw [List.foldl_append, h4]
        simp only [List.foldl_cons, List.foldl_nil]
        omega

/-- Whole numbers, written like the floating-point numbers they stand for: `-3` as `-3.0`. -/
def intNumbers : NumText Int where
  print x := some ⟨decide (x < 0), decimal x.natAbs, some [0], none⟩
  value t :=
    let n : Int := (t.int.foldl (fun a d => 10 * a + d) 0 : Nat)
    some (if t.negative then -n else n)

theorem intNumbers_prints : PrintsNumbers intNumbers := by
  intro x t h
  simp only [intNumbers, Option.some.injEq] at h
  subst h
  obtain ⟨h1, h2, h3, _⟩ := decimal_digits x.natAbs
  exact ⟨h1, h2, fun more hm => (h3 more hm).1, fun ds hd => by simp at hd; subst hd; simp, fun _ _ h => by simp at h⟩

theorem intNumbers_reread (x : Int) : reread intNumbers x = some x := by
  obtain ⟨_, _, _, h4⟩ := decimal_digits x.natAbs
  simp only [reread, intNumbers, Option.bind_some, Option.some.injEq, decide_eq_true_eq]
  rw [h4]
  by_cases h : x < 0
  · rw [if_pos h]; omega
  · rw [if_neg h]; omega

end Tokengeex

import Verif.Proofs.Psi
import Verif.Props.EM
import Mathlib.NumberTheory.Harmonic.GammaDeriv
/-
The M-step (C80).
-/
namespace Tokengeex
open Spec ScoreOps RealOps

/-! ### C80 -/

/-- **C80** (digamma) In exact arithmetic the implemented digamma function returns for every positive number, after at most eight
rounds of its loop, and is less than the digamma function by at most 10⁻¹⁰. -/
theorem C80_digamma (x : ℝ) (hx : 0 < x) :
    ∃ d, (∀ fuel ≥ 8, Pruner.digamma fuel x = .ok d) ∧ psi x - 1 / 10000000000 ≤ d ∧ d ≤ psi x := by
  obtain ⟨d, h1, h2, h3⟩ := Pruner.digamma_psi hx
  exact ⟨d, h1, by linarith, by linarith⟩

namespace Pruner

theorem dig_psi {x : ℝ} (h : 1 / 2 ≤ x) : 0 ≤ psi x - dig x ∧ psi x - dig x ≤ 1 / 10000000000 := by
  obtain ⟨d, h1, h2, h3⟩ := digamma_psi (x := x) (by linarith)
  have : dig x = d := by
    have := (dig_spec h).1 8 (Nat.le_refl _)
    rw [h1 8 (Nat.le_refl _)] at this
    simpa using this.symm
  rw [this]
  exact ⟨h2, h3⟩

theorem alternativeVocab_kept (vocab : List (ScoredToken ℝ)) (freqs : List ℝ) :
    alternativeVocab vocab freqs = (keptBy vocab freqs).map fun p => p.1.cloneWithScore (max p.2 (1 / 2)) := by
  have hth : (threshold : ℝ) = 1 / 2 := by simp [threshold, div, RealOps.ofNat]
  unfold alternativeVocab keptBy
  induction vocab generalizing freqs with
  | nil => simp
  | cons t vocab ih =>
    cases freqs with
    | nil => simp
    | cons f freqs =>
      rw [List.zip_cons_cons, List.zip_cons_cons, List.filterMap_cons, List.filter_cons, ih]
      simp only [hth]
      by_cases hk : t.keep = true
      · simp [hk, TrainOps.max]
      · by_cases hf : f < 1 / 2
        · have : ¬ (1 / 2 ≤ f) := not_le.2 hf
          simp only [hk, lt, hf, decide_true, Bool.true_and, this, decide_false, Bool.or_false]
          simp
        · have h2 : 1 / 2 ≤ f := not_lt.1 hf
          simp only [hk, lt, hf, decide_false, Bool.false_and, h2, decide_true, Bool.or_true]
          simp [TrainOps.max]

end Pruner

/-- **C80** (M-step) In exact arithmetic the M-step keeps exactly the protected tokens and those expected at least half a time, in
their order, and gives each the score `ψ(f) - ψ(total)` up to 10⁻¹⁰, where `f` is its expected frequency, at least 1/2. -/
theorem C80_m_step (vocab : List (ScoredToken ℝ)) (freqs : List ℝ) (fuel : Nat) (hf : 8 ≤ fuel) (w : List (ScoredToken ℝ))
    (h : Pruner.mStep (Model.from_ vocab) freqs fuel = .ok w) : freqs.length = vocab.length ∧ Reestimated vocab freqs w := by
  unfold Pruner.mStep at h
  rw [Model.vocabSize, Model.from_vocab] at h
  by_cases hl : vocab.length ≠ freqs.length
  · rw [if_pos hl] at h; simp at h
  rw [if_neg hl] at h
  refine ⟨by omega, ?_⟩
  simp only at h
  rw [Pruner.foldl_add_real, show (zero : ℝ) = 0 from rfl, zero_add] at h
  have hge := Pruner.alternativeVocab_ge vocab freqs
  have hkept := Pruner.alternativeVocab_kept vocab freqs
  generalize hk : keptBy vocab freqs = kept at *
  unfold Reestimated
  rw [hk]
  rw [hkept] at h hge
  rw [List.map_map] at h
  have e1 : ((fun t : ScoredToken ℝ => t.score) ∘ fun p : ScoredToken ℝ × ℝ => p.1.cloneWithScore (max p.2 (1 / 2))) =
      fun p => max p.2 (1 / 2) := rfl
  rw [e1] at h
  generalize hS : (kept.map fun p => max p.2 (1 / 2)).sum = S at *
  cases kept with
  | nil =>
    obtain ⟨_, _, h⟩ := bind_ok h
    simp only [List.map_nil, List.mapM_nil] at h
    rw [show (pure [] : Res (List ℝ)) = .ok [] from rfl] at h
    simp only [res_bind_ok] at h
    rw [if_neg (by simp)] at h
    cases h
    exact .nil
  | cons p kept =>
    have hS0 : 1 / 2 ≤ S := by
      rw [← hS, List.map_cons, List.sum_cons]
      have : 0 ≤ (kept.map fun p => max p.2 (1 / 2)).sum := by
        apply List.sum_nonneg
        intro x hx
        obtain ⟨q, _, rfl⟩ := List.mem_map.1 hx
        exact le_trans (by norm_num) (le_max_right _ _)
      have := le_max_right p.2 (1 / 2 : ℝ)
      linarith
    rw [(Pruner.dig_spec hS0).1 fuel hf] at h
    simp only [res_bind_ok] at h
    rw [mapM_ok_map _ (fun t => Pruner.dig t.score - Pruner.dig S) _ (by
      intro t ht
      rw [(Pruner.dig_spec (hge t ht)).1 fuel hf]
      rfl)] at h
    simp only [res_bind_ok] at h
    rw [if_neg (by simp [TrainOps.isNan, TrainOps.isInfinite])] at h
    cases h
    generalize p :: kept = l
    clear * - hS0
    induction l with
    | nil => exact .nil
    | cons q l ih =>
      refine .cons ⟨⟨rfl, rfl⟩, ?_⟩ ih
      show |Pruner.dig (max q.2 (1 / 2)) - Pruner.dig S - _| ≤ _
      obtain ⟨h1, h2⟩ := Pruner.dig_psi (x := max q.2 (1 / 2)) (le_max_right _ _)
      obtain ⟨h3, h4⟩ := Pruner.dig_psi hS0
      rw [abs_le]
      constructor <;> linarith

/-- **C80** (EM) In exact arithmetic an EM iteration computes expected frequencies (see C79) and re-estimates the scores from
them. -/
theorem C80_em_step (c : Pruner ℝ) (samples : List Str) (vocab : List (ScoredToken ℝ)) (m' : Model ℝ)
    (h : Pruner.EMStep c samples (Model.from_ vocab) m') :
    ∃ freqs w, Pruner.EStep (Model.from_ vocab) c.dropout samples freqs ∧ m' = Model.from_ w ∧ Reestimated vocab freqs w := by
  obtain ⟨freqs, w, fuel₀, h1, h2, rfl⟩ := h
  exact ⟨freqs, w, h1, rfl, (C80_m_step vocab freqs _ (le_max_right fuel₀ 8) w (h2 _ (le_max_left fuel₀ 8))).2⟩

/-- The hypotheses are met: one iteration on `a`, `b`, `ab` and the sample `"ab"`; the two protected tokens stay. -/
example : ∃ freqs w, Pruner.EStep (Model.from_ realVocab) 0 [['a', 'b']] freqs ∧ Reestimated realVocab freqs w ∧ 2 ≤ w.length := by
  obtain ⟨⟨m', h⟩, _⟩ := C78_em realPruner [['a', 'b']] realVocab realVocab_trainable 1
  cases h with
  | succ h1 h2 =>
    cases h2
    obtain ⟨freqs, w, g1, rfl, g2⟩ := C80_em_step _ _ _ _ h1
    refine ⟨freqs, w, g1, g2, ?_⟩
    obtain ⟨w', e, hp, ht, _⟩ := Pruner.emStep_trainable realVocab_trainable h1
    have : w = w' := by
      have := congrArg Model.vocab e
      rwa [Model.from_vocab, Model.from_vocab] at this
    subst this
    exact ht.two

/-- At 1 the implemented function is the negative of Euler's constant, up to 10⁻¹⁰. -/
example : ∃ d, Pruner.digamma 8 (1 : ℝ) = .ok d ∧ |d + Real.eulerMascheroniConstant| ≤ 1 / 10000000000 := by
  obtain ⟨d, h1, h2, h3⟩ := C80_digamma 1 one_pos
  refine ⟨d, h1 8 (Nat.le_refl _), ?_⟩
  have : psi 1 = -Real.eulerMascheroniConstant := by
    unfold psi
    rw [logDeriv_apply, Real.hasDerivAt_Gamma_one.deriv, Real.Gamma_one, div_one]
  rw [this] at h2 h3
  rw [abs_le]
  constructor <;> linarith

end Tokengeex

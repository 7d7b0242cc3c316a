import Verif.Proofs.LogSumExp
import Verif.Proofs.Viterbi
import Mathlib.Algebra.BigOperators.Group.Finset.Basic
/-
`populate_marginal` over the real numbers: the tables, the sums over segmentations, the update of `expected`.
-/
namespace Tokengeex
open Spec

/-! ## Tables -/

/-- The vector `table` holds `T 0, ..., T (size - 1)`. -/
def Holds (table : List ℝ) (size : Nat) (T : Nat → ℝ) : Prop := table.length = size ∧ ∀ i, i < size → table[i]? = some (T i)

theorem Holds.get {table : List ℝ} {size : Nat} {T : Nat → ℝ} (h : Holds table size T) {i : Nat} (hi : i < size) :
    idx table i = .ok (T i) := idx_of_getElem? (h.2 i hi)

theorem Holds.set {table : List ℝ} {size : Nat} {T : Nat → ℝ} (h : Holds table size T) {i : Nat} (hi : i < size) (v : ℝ) :
    ∃ table', setIdx table i v = .ok table' ∧ Holds table' size (Function.update T i v) := by
  refine ⟨table.set i v, ?_, by simp [h.1], ?_⟩
  · unfold setIdx; rw [if_pos (by rw [h.1]; exact hi)]
  · intro j hj
    rw [List.getElem?_set]
    by_cases e : i = j
    · subst e; rw [if_pos rfl, if_pos (by rw [h.1]; exact hj)]; simp
    · rw [if_neg e, h.2 j hj, Function.update_of_ne (Ne.symm e)]

/-- `log_sum_exp` over a list. -/
noncomputable def lseList (y : ℝ) (ys : List ℝ) : ℝ := ys.foldl (fun a y => logSumExp a y false) y

theorem exp_lseList (y : ℝ) (ys : List ℝ) :
    (Real.exp y + (ys.map Real.exp).sum) / (1 + Real.exp (-50)) ^ ys.length ≤ Real.exp (lseList y ys) ∧
    Real.exp (lseList y ys) ≤ Real.exp y + (ys.map Real.exp).sum := by
  have hc1 : 1 ≤ 1 + Real.exp (-50) := by have := Real.exp_pos (-50); linarith
  have hc : 0 < 1 + Real.exp (-50) := by linarith
  induction ys generalizing y with
  | nil => simp [lseList]
  | cons z ys ih =>
    obtain ⟨h1, h2⟩ := ih (logSumExp y z false)
    obtain ⟨h3, h4⟩ := exp_logSumExp y z
    have e : lseList y (z :: ys) = lseList (logSumExp y z false) ys := rfl
    rw [e]
    simp only [List.map_cons, List.sum_cons, List.length_cons]
    have hs : 0 ≤ (ys.map Real.exp).sum := List.sum_nonneg (by
      intro x hx
      obtain ⟨a, _, rfl⟩ := List.mem_map.1 hx
      exact (Real.exp_pos a).le)
    constructor
    · refine le_trans ?_ h1
      rw [pow_succ', ← div_div]
      refine div_le_div_of_nonneg_right ?_ (by positivity)
      rw [← add_assoc, add_div]
      have : (ys.map Real.exp).sum / (1 + Real.exp (-50)) ≤ (ys.map Real.exp).sum := div_le_self hs hc1
      linarith
    · linarith

variable {size : Nat} {nodes : List (LNode ℝ)} {w : Nat → ℝ}

/-- The value accumulated for a target. -/
noncomputable def accValue (w T : Nat → ℝ) (old : ℝ) : List Nat → ℝ
  | [] => old
  | s :: ss => lseList (w s + T s) (ss.map (fun s => w s + T s))

theorem accValue_congr {w T T' : Nat → ℝ} (old : ℝ) {l : List Nat} (h : ∀ s ∈ l, T' s = T s) :
    accValue w T' old l = accValue w T old l := by
  cases l with
  | nil => rfl
  | cons a l =>
    show lseList (w a + T' a) _ = lseList (w a + T a) _
    rw [h a (by simp)]
    congr 1
    apply List.map_congr_left
    intro b hb
    rw [h b (by simp [hb])]

theorem accSources_eq (hw : ∀ i, i < size → ∃ x, nodes[i]? = some x ∧ x.score = w i) {sources : List Nat} {target : Nat}
    (ht : target < size) (hs : ∀ s ∈ sources, s < size ∧ s ≠ target) (hnd : sources.Nodup) :
    ∀ (rest pre : List Nat) (table : List ℝ) (T : Nat → ℝ), sources = pre ++ rest → Holds table size T →
      T target = accValue w T (T target) pre →
      ∃ table' v, rest.foldlM (Lattice.accSource nodes sources target) table = .ok table' ∧
        Holds table' size (Function.update T target v) ∧ v = accValue w T (T target) sources := by
  intro rest
  induction rest with
  | nil =>
    intro pre table T hpre h hT
    refine ⟨table, T target, rfl, ?_, ?_⟩
    · rw [Function.update_eq_self]; exact h
    · rw [hpre, List.append_nil]; exact hT
  | cons s rest ih =>
    intro pre table T hpre h hT
    obtain ⟨hs1, hs2⟩ := hs s (by rw [hpre]; simp)
    obtain ⟨x, hx, hxs⟩ := hw s hs1
    rw [List.foldlM_cons]
    have hfirst : ∃ f, sources[0]? = some f ∧ ((s == f) = decide (pre = [])) := by
      cases pre with
      | nil => exact ⟨s, by rw [hpre]; rfl, by simp⟩
      | cons f pre =>
        refine ⟨f, by rw [hpre]; rfl, ?_⟩
        have : s ≠ f := by
          rw [hpre] at hnd
          rintro rfl
          simp at hnd
        simpa using this
    obtain ⟨f, hf1, hf2⟩ := hfirst
    obtain ⟨table', h1, h2⟩ := h.set ht (logSumExp (T target) (ScoreOps.add x.score (T s)) (s == f))
    have hstep : Lattice.accSource nodes sources target table s = .ok table' := by
      unfold Lattice.accSource
      rw [h.get ht, h.get hs1, idx_of_getElem? hx, idx_of_getElem? hf1]
      simp only [res_bind_ok]
      exact h1
    rw [hstep]
    simp only [res_bind_ok]
    have hcongr : ∀ (v old : ℝ) (l : List Nat), (∀ s ∈ l, s ≠ target) →
        accValue w (Function.update T target v) old l = accValue w T old l := by
      intro v old l hl
      exact accValue_congr _ (fun s hs => Function.update_of_ne (hl s hs) _ _)
    have hval : logSumExp (T target) (ScoreOps.add x.score (T s)) (s == f) = accValue w T (T target) (pre ++ [s]) := by
      rw [hf2, hxs]
      cases pre with
      | nil => rfl
      | cons a pre =>
        simp only [reduceCtorEq, decide_false]
        rw [hT]
        simp [accValue, lseList]; rfl
    obtain ⟨table'', v, h3, h4, h5⟩ := ih (pre ++ [s]) table' _ (by rw [hpre]; simp) h2 (by
      rw [Function.update_self, hcongr _ _ _ (fun y hy => (hs y (by
        rw [hpre]; simp only [List.mem_append, List.mem_singleton] at hy ⊢; simp; tauto)).2), hval]
      cases pre <;> rfl)
    refine ⟨table'', v, h3, ?_, ?_⟩
    · rw [Function.update_idem] at h4; exact h4
    · rw [h5, hcongr _ _ _ (fun y hy => (hs y hy).2)]
      cases sources with
      | nil => simp at hf1
      | cons => rfl

theorem accPos_eq (hw : ∀ i, i < size → ∃ x, nodes[i]? = some x ∧ x.score = w i) {sources : List Nat}
    (hnd : sources.Nodup) (hsz : ∀ s ∈ sources, s < size) :
    ∀ (targets : List Nat) (table : List ℝ) (T : Nat → ℝ), (∀ t ∈ targets, t < size ∧ t ∉ sources) → Holds table size T →
      ∃ table' T', Lattice.accPos nodes targets sources table = .ok table' ∧ Holds table' size T' ∧
        (∀ t ∈ targets, ∃ old, T' t = accValue w T old sources) ∧ ∀ i, i ∉ targets → T' i = T i := by
  intro targets
  induction targets with
  | nil => intro table T _ h; exact ⟨table, T, rfl, h, by simp, by simp⟩
  | cons t targets ih =>
    intro table T ht h
    obtain ⟨ht1, ht2⟩ := ht t (by simp)
    obtain ⟨table₁, v, h1, h2, h3⟩ := accSources_eq hw ht1
      (fun s hs => ⟨hsz s hs, fun e => ht2 (e ▸ hs)⟩) hnd sources [] table T rfl h rfl
    obtain ⟨table₂, T₂, h4, h5, h6, h7⟩ := ih table₁ _ (fun x hx => ht x (by simp [hx])) h2
    have hcongr : ∀ old, accValue w (Function.update T t v) old sources = accValue w T old sources := by
      intro old
      exact accValue_congr _ (fun s hs => Function.update_of_ne (show s ≠ t from fun e => ht2 (e ▸ hs)) _ _)
    refine ⟨table₂, T₂, ?_, h5, ?_, ?_⟩
    · unfold Lattice.accPos at h4 ⊢
      rw [List.foldlM_cons, h1]
      exact h4
    · intro x hx
      by_cases hxt : x ∈ targets
      · obtain ⟨old, ho⟩ := h6 x hxt
        exact ⟨old, by rw [ho, hcongr]⟩
      · have : x = t := by simpa [hxt] using hx
        subst this
        exact ⟨T x, by rw [h7 x hxt, Function.update_self, h3]⟩
    · intro i hi
      simp only [List.mem_cons, not_or] at hi
      rw [h7 i hi.2, Function.update_of_ne hi.1]

/-- Levels processed in order: every source is the base node or a target of an earlier level. -/
def Layered (base : Nat) : List Nat → List (List Nat × List Nat) → Prop
  | _, [] => True
  | done, (targets, sources) :: rest => (∀ s ∈ sources, s = base ∨ s ∈ done) ∧ (∀ t ∈ targets, t ∉ done ∧ t ≠ base) ∧
      Layered base (done ++ targets) rest

/-- Error after `k` calls of `log_sum_exp`. -/
noncomputable def errPow (k : Nat) : ℝ := (1 + Real.exp (-50)) ^ k

theorem errPow_pos (k : Nat) : 0 < errPow k := by unfold errPow; have := Real.exp_pos (-50); positivity

theorem errPow_mono {a b : Nat} (h : a ≤ b) : errPow a ≤ errPow b := by
  unfold errPow
  exact pow_le_pow_right₀ (by have := Real.exp_pos (-50); linarith) h

theorem one_le_errPow (k : Nat) : 1 ≤ errPow k := by
  unfold errPow
  exact one_le_pow₀ (by have := Real.exp_pos (-50); linarith)

theorem errPow_add (a b : Nat) : errPow (a + b) = errPow a * errPow b := pow_add _ _ _

theorem levels_eq (hw : ∀ i, i < size → ∃ x, nodes[i]? = some x ∧ x.score = w i) {base : Nat} (hbase : base < size)
    {X : Nat → ℝ} (hX : ∀ i, 0 ≤ X i) (hXb : X base = 1) :
    ∀ (levels : List (List Nat × List Nat)) (done : List Nat) (k : Nat) (table : List ℝ) (T : Nat → ℝ),
      (∀ lv ∈ levels, lv.2.Nodup ∧ (∀ s ∈ lv.2, s < size) ∧ (∀ t ∈ lv.1, t < size) ∧ (lv.1 ≠ [] → lv.2 ≠ []) ∧
        ∀ t ∈ lv.1, X t = (lv.2.map (fun s => Real.exp (w s) * X s)).sum) →
      Layered base done levels → Holds table size T → T base = 0 →
      (∀ t ∈ done, X t / errPow k ≤ Real.exp (T t) ∧ Real.exp (T t) ≤ X t) →
      ∃ table' T', levels.foldlM (fun table lv => Lattice.accPos nodes lv.1 lv.2 table) table = .ok table' ∧
        Holds table' size T' ∧ T' base = 0 ∧
        ∀ t ∈ done ++ levels.flatMap (·.1), X t / errPow (k + (levels.flatMap (·.2)).length) ≤ Real.exp (T' t) ∧
          Real.exp (T' t) ≤ X t := by
  intro levels
  induction levels with
  | nil =>
    intro done k table T _ _ h hb hd
    exact ⟨table, T, rfl, h, hb, by simpa using hd⟩
  | cons lv levels ih =>
    obtain ⟨targets, sources⟩ := lv
    intro done k table T hlv hlay h hb hd
    obtain ⟨hnd, hsz, htz, hne, hsum⟩ := hlv (targets, sources) (by simp)
    simp only at hnd hsz htz hne hsum
    obtain ⟨hl1, hl2, hl3⟩ := hlay
    have hdisj : ∀ t ∈ targets, t < size ∧ t ∉ sources := by
      intro t ht
      refine ⟨htz t ht, fun hs => ?_⟩
      rcases hl1 t hs with h | h
      · exact (hl2 t ht).2 h
      · exact (hl2 t ht).1 h
    obtain ⟨table₁, T₁, h1, h2, h3, h4⟩ := accPos_eq hw hnd hsz targets table T hdisj h
    have hb₁ : T₁ base = 0 := by
      rw [h4 base (fun hm => (hl2 base hm).2 rfl)]; exact hb
    have hsrc : ∀ s ∈ sources, X s / errPow k ≤ Real.exp (T s) ∧ Real.exp (T s) ≤ X s := by
      intro s hs
      rcases hl1 s hs with rfl | h
      · rw [hb, hXb, Real.exp_zero]
        exact ⟨(div_le_one (errPow_pos k)).2 (one_le_errPow k), le_refl _⟩
      · exact hd s h
    have hd₁ : ∀ t ∈ done ++ targets, X t / errPow (k + sources.length) ≤ Real.exp (T₁ t) ∧ Real.exp (T₁ t) ≤ X t := by
      intro t ht
      by_cases htt : t ∈ targets
      · obtain ⟨old, ho⟩ := h3 t htt
        rw [ho, hsum t htt]
        have hne' := hne (List.ne_nil_of_mem htt)
        cases sources with
        | nil => exact absurd rfl hne'
        | cons a l =>
          unfold accValue
          obtain ⟨g1, g2⟩ := exp_lseList (w a + T a) (l.map (fun s => w s + T s))
          have e : Real.exp (w a + T a) + ((l.map (fun s => w s + T s)).map Real.exp).sum =
              ((a :: l).map (fun s => Real.exp (w s) * Real.exp (T s))).sum := by
            simp only [List.map_cons, List.sum_cons, Real.exp_add, List.map_map]
            congr 2
            apply List.map_congr_left
            intro b _
            exact Real.exp_add _ _
          rw [e] at g1 g2
          have hup : ((a :: l).map (fun s => Real.exp (w s) * Real.exp (T s))).sum ≤
              ((a :: l).map (fun s => Real.exp (w s) * X s)).sum := by
            apply List.sum_le_sum
            intro s hs
            exact mul_le_mul_of_nonneg_left (hsrc s hs).2 (Real.exp_pos _).le
          have hlow : ((a :: l).map (fun s => Real.exp (w s) * X s)).sum / errPow k ≤
              ((a :: l).map (fun s => Real.exp (w s) * Real.exp (T s))).sum := by
            rw [div_eq_mul_inv, ← List.sum_map_mul_right]
            apply List.sum_le_sum
            intro s hs
            rw [mul_assoc, ← div_eq_mul_inv]
            exact mul_le_mul_of_nonneg_left (hsrc s hs).1 (Real.exp_pos _).le
          refine ⟨?_, le_trans g2 hup⟩
          refine le_trans ?_ g1
          rw [List.length_map, errPow_add, ← div_div]
          have hle : errPow l.length ≤ errPow (a :: l).length := errPow_mono (by simp)
          have hnn : 0 ≤ ((a :: l).map (fun s => Real.exp (w s) * Real.exp (T s))).sum := List.sum_nonneg (by
            intro x hx
            obtain ⟨b, _, rfl⟩ := List.mem_map.1 hx
            positivity)
          calc _ ≤ ((a :: l).map (fun s => Real.exp (w s) * Real.exp (T s))).sum / errPow (a :: l).length :=
                div_le_div_of_nonneg_right hlow (errPow_pos _).le
            _ ≤ _ := div_le_div_of_nonneg_left hnn (errPow_pos _) hle
      · have htd : t ∈ done := by simpa [htt] using ht
        rw [h4 t htt]
        refine ⟨le_trans ?_ (hd t htd).1, (hd t htd).2⟩
        exact div_le_div_of_nonneg_left (hX t) (errPow_pos _) (errPow_mono (by omega))
    obtain ⟨table₂, T₂, g1, g2, g3, g4⟩ := ih (done ++ targets) (k + sources.length) table₁ T₁
      (fun lv h => hlv lv (by simp [h])) hl3 h2 hb₁ hd₁
    refine ⟨table₂, T₂, ?_, g2, g3, ?_⟩
    · rw [List.foldlM_cons]
      simp only [h1, res_bind_ok]
      exact g1
    · intro t ht
      have := g4 t (by simpa [List.append_assoc] using ht)
      simpa [List.flatMap_cons, Nat.add_assoc] using this

end Tokengeex

import Verif.Proofs.Marginal2
/-
The tables of `populate_marginal` for any kind of scores.
-/
namespace Tokengeex
open Spec

variable {F : Type} [RealOps F]

/-- The vector `table` holds `T 0, ..., T (size - 1)`. -/
def HoldsF (table : List F) (size : Nat) (T : Nat → F) : Prop := table.length = size ∧ ∀ i, i < size → table[i]? = some (T i)

omit [RealOps F] in
theorem HoldsF.get {table : List F} {size : Nat} {T : Nat → F} (h : HoldsF table size T) {i : Nat} (hi : i < size) :
    idx table i = .ok (T i) := idx_of_getElem? (h.2 i hi)

omit [RealOps F] in
theorem HoldsF.set {table : List F} {size : Nat} {T : Nat → F} (h : HoldsF table size T) {i : Nat} (hi : i < size) (v : F) :
    ∃ table', setIdx table i v = .ok table' ∧ HoldsF table' size (Function.update T i v) := by
  refine ⟨table.set i v, ?_, by simp [h.1], ?_⟩
  · unfold setIdx; rw [if_pos (by rw [h.1]; exact hi)]
  · intro j hj
    rw [List.getElem?_set]
    by_cases e : i = j
    · subst e; rw [if_pos rfl, if_pos (by rw [h.1]; exact hj)]; simp
    · rw [if_neg e, h.2 j hj, Function.update_of_ne (Ne.symm e)]

/-- `log_sum_exp` over a list. -/
def lseFold (y : F) (ys : List F) : F := ys.foldl (fun a y => logSumExp a y false) y

variable {size : Nat} {nodes : List (LNode F)} {w : Nat → F}

/-- The value accumulated for a target. -/
def accVal (w T : Nat → F) (old : F) : List Nat → F
  | [] => old
  | s :: ss => lseFold (ScoreOps.add (w s) (T s)) (ss.map (fun s => ScoreOps.add (w s) (T s)))

theorem accVal_congr {w T T' : Nat → F} (old : F) {l : List Nat} (h : ∀ s ∈ l, T' s = T s) :
    accVal w T' old l = accVal w T old l := by
  cases l with
  | nil => rfl
  | cons a l =>
    show lseFold (ScoreOps.add (w a) (T' a)) _ = lseFold (ScoreOps.add (w a) (T a)) _
    rw [h a (by simp)]
    congr 1
    apply List.map_congr_left
    intro b hb
    rw [h b (by simp [hb])]

theorem accSources_any (hw : ∀ i, i < size → ∃ x, nodes[i]? = some x ∧ x.score = w i) {sources : List Nat} {target : Nat}
    (ht : target < size) (hs : ∀ s ∈ sources, s < size ∧ s ≠ target) (hnd : sources.Nodup) :
    ∀ (rest pre : List Nat) (table : List F) (T : Nat → F), sources = pre ++ rest → HoldsF table size T →
      T target = accVal w T (T target) pre →
      ∃ table' v, rest.foldlM (Lattice.accSource nodes sources target) table = .ok table' ∧
        HoldsF table' size (Function.update T target v) ∧ v = accVal w T (T target) sources := by
  intro rest
  induction rest with
  | nil =>
    intro pre table T hpre h hT
    refine ⟨table, T target, rfl, ?_, ?_⟩
    · rw [Function.update_eq_self]; exact h
    · rw [hpre, List.append_nil]; exact hT
  | cons s rest ih =>
    intro pre table T hpre h hT
    obtain ⟨hs1, hs2⟩ := hs s (by rw [hpre]; simp)
    obtain ⟨x, hx, hxs⟩ := hw s hs1
    rw [List.foldlM_cons]
    have hfirst : ∃ f, sources[0]? = some f ∧ ((s == f) = decide (pre = [])) := by
      cases pre with
      | nil => exact ⟨s, by rw [hpre]; rfl, by simp⟩
      | cons f pre =>
        refine ⟨f, by rw [hpre]; rfl, ?_⟩
        have : s ≠ f := by
          rw [hpre] at hnd
          rintro rfl
          simp at hnd
        simpa using this
    obtain ⟨f, hf1, hf2⟩ := hfirst
    obtain ⟨table', h1, h2⟩ := h.set ht (logSumExp (T target) (ScoreOps.add x.score (T s)) (s == f))
    have hstep : Lattice.accSource nodes sources target table s = .ok table' := by
      unfold Lattice.accSource
      rw [h.get ht, h.get hs1, idx_of_getElem? hx, idx_of_getElem? hf1]
      simp only [res_bind_ok]
      exact h1
    rw [hstep]
    simp only [res_bind_ok]
    have hcongr : ∀ (v old : F) (l : List Nat), (∀ s ∈ l, s ≠ target) →
        accVal w (Function.update T target v) old l = accVal w T old l := by
      intro v old l hl
      exact accVal_congr _ (fun s hs => Function.update_of_ne (hl s hs) _ _)
    have hval : logSumExp (T target) (ScoreOps.add x.score (T s)) (s == f) = accVal w T (T target) (pre ++ [s]) := by
      rw [hf2, hxs]
      cases pre with
      | nil => rfl
      | cons a pre =>
        simp only [reduceCtorEq, decide_false]
        rw [hT]
        simp [accVal, lseFold]
    obtain ⟨table'', v, h3, h4, h5⟩ := ih (pre ++ [s]) table' _ (by rw [hpre]; simp) h2 (by
      rw [Function.update_self, hcongr _ _ _ (fun y hy => (hs y (by
        rw [hpre]; simp only [List.mem_append, List.mem_singleton] at hy ⊢; simp; tauto)).2), hval]
      cases pre <;> rfl)
    refine ⟨table'', v, h3, ?_, ?_⟩
    · rw [Function.update_idem] at h4; exact h4
    · rw [h5, hcongr _ _ _ (fun y hy => (hs y hy).2)]
      cases sources with
      | nil => simp at hf1
      | cons => rfl

theorem accPos_any (hw : ∀ i, i < size → ∃ x, nodes[i]? = some x ∧ x.score = w i) {sources : List Nat}
    (hnd : sources.Nodup) (hsz : ∀ s ∈ sources, s < size) :
    ∀ (targets : List Nat) (table : List F) (T : Nat → F), (∀ t ∈ targets, t < size ∧ t ∉ sources) → HoldsF table size T →
      ∃ table' T', Lattice.accPos nodes targets sources table = .ok table' ∧ HoldsF table' size T' ∧
        (∀ t ∈ targets, ∃ old, T' t = accVal w T old sources) ∧ ∀ i, i ∉ targets → T' i = T i := by
  intro targets
  induction targets with
  | nil => intro table T _ h; exact ⟨table, T, rfl, h, by simp, by simp⟩
  | cons t targets ih =>
    intro table T ht h
    obtain ⟨ht1, ht2⟩ := ht t (by simp)
    obtain ⟨table₁, v, h1, h2, h3⟩ := accSources_any hw ht1
      (fun s hs => ⟨hsz s hs, fun e => ht2 (e ▸ hs)⟩) hnd sources [] table T rfl h rfl
    obtain ⟨table₂, T₂, h4, h5, h6, h7⟩ := ih table₁ _ (fun x hx => ht x (by simp [hx])) h2
    have hcongr : ∀ old, accVal w (Function.update T t v) old sources = accVal w T old sources := by
      intro old
      exact accVal_congr _ (fun s hs => Function.update_of_ne (show s ≠ t from fun e => ht2 (e ▸ hs)) _ _)
    refine ⟨table₂, T₂, ?_, h5, ?_, ?_⟩
    · unfold Lattice.accPos at h4 ⊢
      rw [List.foldlM_cons, h1]
      exact h4
    · intro x hx
      by_cases hxt : x ∈ targets
      · obtain ⟨old, ho⟩ := h6 x hxt
        exact ⟨old, by rw [ho, hcongr]⟩
      · have : x = t := by simpa [hxt] using hx
        subst this
        exact ⟨T x, by rw [h7 x hxt, Function.update_self, h3]⟩
    · intro i hi
      simp only [List.mem_cons, not_or] at hi
      rw [h7 i hi.2, Function.update_of_ne hi.1]

/-- Levels processed in order, for any relation between a node, its value and the number of `log_sum_exp` made so far. -/
theorem levels_any (hw : ∀ i, i < size → ∃ x, nodes[i]? = some x ∧ x.score = w i) {base : Nat}
    (R : Nat → Nat → F → Prop) (hmono : ∀ {k k' t v}, k ≤ k' → R k t v → R k' t v) :
    ∀ (levels : List (List Nat × List Nat)) (done : List Nat) (k : Nat) (table : List F) (T : Nat → F),
      (∀ lv ∈ levels, lv.2.Nodup ∧ (∀ s ∈ lv.2, s < size) ∧ (∀ t ∈ lv.1, t < size) ∧
        ∀ (k : Nat) (T : Nat → F), (∀ s ∈ lv.2, R k s (T s)) → ∀ t ∈ lv.1, ∀ old, R (k + lv.2.length) t (accVal w T old lv.2)) →
      Layered base done levels → HoldsF table size T → R k base (T base) → (∀ t ∈ done, R k t (T t)) →
      ∃ table' T', levels.foldlM (fun table lv => Lattice.accPos nodes lv.1 lv.2 table) table = .ok table' ∧
        HoldsF table' size T' ∧ ∀ t ∈ done ++ levels.flatMap (·.1), R (k + (levels.flatMap (·.2)).length) t (T' t) := by
  intro levels
  induction levels with
  | nil =>
    intro done k table T _ _ h _ hd
    exact ⟨table, T, rfl, h, by simpa using hd⟩
  | cons lv levels ih =>
    obtain ⟨targets, sources⟩ := lv
    intro done k table T hlv hlay h hb hd
    obtain ⟨hnd, hsz, htz, hstep⟩ := hlv (targets, sources) (by simp)
    simp only at hnd hsz htz hstep
    obtain ⟨hl1, hl2, hl3⟩ := hlay
    have hdisj : ∀ t ∈ targets, t < size ∧ t ∉ sources := by
      intro t ht
      refine ⟨htz t ht, fun hs => ?_⟩
      rcases hl1 t hs with h | h
      · exact (hl2 t ht).2 h
      · exact (hl2 t ht).1 h
    obtain ⟨table₁, T₁, h1, h2, h3, h4⟩ := accPos_any hw hnd hsz targets table T hdisj h
    have hle : k ≤ k + sources.length := Nat.le_add_right _ _
    have hb₁ : R (k + sources.length) base (T₁ base) := by
      rw [h4 base (fun hm => (hl2 base hm).2 rfl)]; exact hmono hle hb
    have hsrc : ∀ s ∈ sources, R k s (T s) := by
      intro s hs
      rcases hl1 s hs with rfl | h
      · exact hb
      · exact hd s h
    have hd₁ : ∀ t ∈ done ++ targets, R (k + sources.length) t (T₁ t) := by
      intro t ht
      by_cases htt : t ∈ targets
      · obtain ⟨old, ho⟩ := h3 t htt
        rw [ho]
        exact hstep k T hsrc t htt old
      · rw [h4 t htt]
        exact hmono hle (hd t (by simpa [htt] using ht))
    obtain ⟨table₂, T₂, g1, g2, g3⟩ := ih (done ++ targets) (k + sources.length) table₁ T₁
      (fun lv h => hlv lv (by simp [h])) hl3 h2 hb₁ hd₁
    refine ⟨table₂, T₂, ?_, g2, ?_⟩
    · rw [List.foldlM_cons]
      simp only [h1, res_bind_ok]
      exact g1
    · intro t ht
      have := g3 t (by simpa [List.append_assoc] using ht)
      simpa [List.flatMap_cons, Nat.add_assoc] using this

end Tokengeex

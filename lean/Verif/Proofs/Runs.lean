import Verif.Spec.Real
import Verif.Proofs.Viterbi
import Mathlib.Algebra.BigOperators.Ring.Finset
import Mathlib.Data.Set.Finite.Lattice
/-
Sums over the segmentations of a sentence.
-/
namespace Tokengeex
open Spec

variable {n : Nat} {es : List (Entry ℝ)}

theorem Spec.Run.le {js : List Nat} : ∀ {a b : Nat}, Run es a js b → a ≤ b := by
  induction js with
  | nil => intro a b h; exact Nat.le_of_eq h
  | cons j js ih =>
    rintro a b ⟨e, _, _, h⟩
    have := ih h
    omega

theorem Spec.Run.append {js ks : List Nat} {a b : Nat} : Run es a (js ++ ks) b ↔ ∃ c, Run es a js c ∧ Run es c ks b := by
  induction js generalizing a with
  | nil => exact ⟨fun h => ⟨a, rfl, h⟩, by rintro ⟨c, rfl, h⟩; exact h⟩
  | cons j js ih =>
    constructor
    · rintro ⟨e, h1, h2, h3⟩
      obtain ⟨c, h4, h5⟩ := ih.1 h3
      exact ⟨c, ⟨e, h1, h2, h4⟩, h5⟩
    · rintro ⟨c, ⟨e, h1, h2, h4⟩, h5⟩
      exact ⟨e, h1, h2, ih.2 ⟨c, h4, h5⟩⟩

theorem Spec.Run.snoc {js : List Nat} {j a b : Nat} :
    Run es a (js ++ [j]) b ↔ ∃ e, es[j]? = some e ∧ e.pos + e.len = b ∧ Run es a js e.pos := by
  rw [Run.append]
  constructor
  · rintro ⟨c, h1, e, h2, h3, h4⟩
    have h4 : c + e.len = b := h4
    exact ⟨e, h2, by omega, h3 ▸ h1⟩
  · rintro ⟨e, h1, h2, h3⟩
    exact ⟨e.pos, h3, e, h1, rfl, h2⟩

theorem Spec.Run.mem_lt {js : List Nat} : ∀ {a b : Nat}, Run es a js b → ∀ j ∈ js, ∃ e, es[j]? = some e := by
  induction js with
  | nil => simp
  | cons j js ih =>
    rintro a b ⟨e, h1, _, h2⟩ k hk
    rcases List.mem_cons.1 hk with rfl | hk
    · exact ⟨e, h1⟩
    · exact ih h2 k hk

/-- Tokens of a run starting at `a` start at `a` or later. -/
theorem Spec.Run.pos_ge {js : List Nat} : ∀ {a b : Nat}, Run es a js b → ∀ j ∈ js, ∀ e, es[j]? = some e → a ≤ e.pos := by
  induction js with
  | nil => simp
  | cons j js ih =>
    rintro a b ⟨e, h1, h2, h3⟩ k hk e' he'
    rcases List.mem_cons.1 hk with rfl | hk
    · rw [h1] at he'; simp only [Option.some.injEq] at he'; subst he'; omega
    · have := ih h3 k hk e' he'; omega

/-- Tokens of a run to `b` stop at `b` or before. -/
theorem Spec.Run.end_le {js : List Nat} : ∀ {a b : Nat}, Run es a js b → ∀ j ∈ js, ∀ e, es[j]? = some e → e.pos + e.len ≤ b := by
  induction js with
  | nil => simp
  | cons j js ih =>
    rintro a b ⟨e, h1, h2, h3⟩ k hk e' he'
    rcases List.mem_cons.1 hk with rfl | hk
    · rw [h1] at he'; simp only [Option.some.injEq] at he'; subst he'
      have := h3.le; omega
    · exact ih h3 k hk e' he'

theorem Spec.Run.nodup (hi : Inside n es) {js : List Nat} : ∀ {a b : Nat}, Run es a js b → js.Nodup := by
  induction js with
  | nil => simp
  | cons j js ih =>
    rintro a b ⟨e, h1, h2, h3⟩
    refine List.nodup_cons.2 ⟨fun hm => ?_, ih h3⟩
    have := h3.pos_ge j hm e h1
    have := (hi e (List.mem_of_getElem? h1)).1
    omega

theorem runs_finite (hi : Inside n es) (a b : Nat) : {js | Run es a js b}.Finite := by
  have key : ∀ d a, b ≤ a + d → {js | Run es a js b}.Finite := by
    intro d
    induction d with
    | zero =>
      intro a h
      refine Set.Finite.subset (Set.finite_singleton []) ?_
      intro js hjs
      cases js with
      | nil => rfl
      | cons j js =>
        obtain ⟨e, h1, h2, h3⟩ := hjs
        have := h3.le
        have := (hi e (List.mem_of_getElem? h1)).1
        omega
    | succ d ih =>
      intro a h
      have hfin : (({[]} : Set (List Nat)) ∪ ⋃ e ∈ {e | e ∈ es}, ⋃ j ∈ {j | j < es.length},
          (fun js => j :: js) '' {js | 0 < e.len ∧ Run es (a + e.len) js b}).Finite := by
        refine Set.Finite.union (Set.finite_singleton _) ?_
        refine Set.Finite.biUnion (List.finite_toSet es) ?_
        intro e _
        refine Set.Finite.biUnion (Set.finite_lt_nat _) ?_
        intro j _
        refine Set.Finite.image _ ?_
        by_cases hl : 0 < e.len
        · refine Set.Finite.subset (ih (a + e.len) (by omega)) ?_
          rintro js ⟨_, h⟩; exact h
        · refine Set.Finite.subset (Set.finite_empty) ?_
          rintro js ⟨h, _⟩; exact absurd h hl
      refine Set.Finite.subset hfin ?_
      intro js hjs
      cases js with
      | nil => exact .inl rfl
      | cons j js =>
        obtain ⟨e, h1, h2, h3⟩ := hjs
        right
        have hm := List.mem_of_getElem? h1
        simp only [Set.mem_iUnion, Set.mem_ofPred_eq, Set.mem_image]
        exact ⟨e, hm, j, (List.getElem?_eq_some_iff.1 h1).1, js, ⟨(hi e hm).1, h3⟩, rfl⟩
  exact key b a (by omega)

/-- All the runs from `a` to `b`. -/
noncomputable def runs (hi : Inside n es) (a b : Nat) : Finset (List Nat) := (runs_finite hi a b).toFinset

theorem mem_runs {hi : Inside n es} {a b : Nat} {js : List Nat} : js ∈ runs hi a b ↔ Run es a js b := by
  simp [runs]

/-- Weight of a run. -/
noncomputable def weight (es : List (Entry ℝ)) (js : List Nat) : ℝ := Real.exp (runScore es js)

theorem weight_nil : weight es [] = 1 := by simp [weight, runScore]
theorem weight_append (js ks : List Nat) : weight es (js ++ ks) = weight es js * weight es ks := by
  simp [weight, runScore, Real.exp_add]
theorem weight_cons (j : Nat) (ks : List Nat) : weight es (j :: ks) = Real.exp (entryScore es j) * weight es ks := by
  simp [weight, runScore, Real.exp_add]
theorem weight_snoc (j : Nat) (ks : List Nat) : weight es (ks ++ [j]) = weight es ks * Real.exp (entryScore es j) := by
  rw [weight_append, weight_cons, weight_nil, mul_one]
theorem weight_pos (js : List Nat) : 0 < weight es js := Real.exp_pos _

/-- Sum of the weights of the runs from `a` to `b`. -/
noncomputable def total (hi : Inside n es) (a b : Nat) : ℝ := ∑ js ∈ runs hi a b, weight es js

/-- Numbers of the tokens satisfying `c`. -/
noncomputable def entryNums (es : List (Entry ℝ)) (c : Entry ℝ → Bool) : Finset Nat :=
  (Finset.range es.length).filter (fun j => ∃ e, es[j]? = some e ∧ c e = true)

theorem mem_entryNums {c : Entry ℝ → Bool} {j : Nat} : j ∈ entryNums es c ↔ ∃ e, es[j]? = some e ∧ c e = true := by
  unfold entryNums
  rw [Finset.mem_filter, Finset.mem_range]
  exact ⟨fun h => h.2, fun ⟨e, h1, h2⟩ => ⟨(List.getElem?_eq_some_iff.1 h1).1, e, h1, h2⟩⟩

def posOf (es : List (Entry ℝ)) (j : Nat) : Nat := (es[j]?.map (·.pos)).getD 0
def endOf (es : List (Entry ℝ)) (j : Nat) : Nat := (es[j]?.map (fun e => e.pos + e.len)).getD 0

theorem posOf_eq {j : Nat} {e : Entry ℝ} (h : es[j]? = some e) : posOf es j = e.pos := by simp [posOf, h]
theorem endOf_eq {j : Nat} {e : Entry ℝ} (h : es[j]? = some e) : endOf es j = e.pos + e.len := by simp [endOf, h]

theorem total_self (hi : Inside n es) (a : Nat) : total hi a a = 1 := by
  have : runs hi a a = {[]} := by
    ext js
    rw [mem_runs, Finset.mem_singleton]
    cases js with
    | nil => simp [Run]
    | cons j js =>
      simp only [reduceCtorEq, iff_false]
      rintro ⟨e, h1, h2, h3⟩
      have := h3.le
      have := (hi e (List.mem_of_getElem? h1)).1
      omega
  unfold total
  rw [this, Finset.sum_singleton, weight_nil]

/-- Splitting off the last token. -/
theorem total_last (hi : Inside n es) (a b : Nat) (h : a ≠ b) :
    total hi a b = ∑ j ∈ entryNums es (fun e => e.pos + e.len == b), Real.exp (entryScore es j) * total hi a (posOf es j) := by
  have : runs hi a b = (entryNums es (fun e => e.pos + e.len == b)).biUnion
      (fun j => (runs hi a (posOf es j)).image (fun js => js ++ [j])) := by
    ext js
    rw [mem_runs, Finset.mem_biUnion]
    constructor
    · intro hr
      rcases List.eq_nil_or_concat js with rfl | ⟨ks, j, rfl⟩
      · exact absurd hr h
      · rw [List.concat_eq_append, Run.snoc] at hr
        obtain ⟨e, h1, h2, h3⟩ := hr
        refine ⟨j, mem_entryNums.2 ⟨e, h1, by simpa using h2⟩, Finset.mem_image.2 ⟨ks, ?_, by simp⟩⟩
        rw [mem_runs, posOf_eq h1]; exact h3
    · rintro ⟨j, hj, hm⟩
      obtain ⟨ks, hk, rfl⟩ := Finset.mem_image.1 hm
      obtain ⟨e, h1, h2⟩ := mem_entryNums.1 hj
      rw [mem_runs, posOf_eq h1] at hk
      exact Run.snoc.2 ⟨e, h1, by simpa using h2, hk⟩
  unfold total
  rw [this, Finset.sum_biUnion]
  · apply Finset.sum_congr rfl
    intro j _
    rw [Finset.sum_image (by intro x _ y _ hxy; exact List.append_cancel_right hxy), Finset.mul_sum]
    apply Finset.sum_congr rfl
    intro js _
    rw [weight_snoc, mul_comm]
  · intro i _ j _ hij
    rw [Function.onFun, Finset.disjoint_left]
    intro js h1 h2
    obtain ⟨x, _, hx⟩ := Finset.mem_image.1 h1
    obtain ⟨y, _, hy⟩ := Finset.mem_image.1 h2
    have := List.append_inj' (hx.trans hy.symm) rfl
    exact hij (by simpa using this.2)

/-- Splitting off the first token. -/
theorem total_first (hi : Inside n es) (a b : Nat) (h : a ≠ b) :
    total hi a b = ∑ j ∈ entryNums es (fun e => e.pos == a), Real.exp (entryScore es j) * total hi (endOf es j) b := by
  have : runs hi a b = (entryNums es (fun e => e.pos == a)).biUnion
      (fun j => (runs hi (endOf es j) b).image (fun js => j :: js)) := by
    ext js
    rw [mem_runs, Finset.mem_biUnion]
    constructor
    · intro hr
      cases js with
      | nil => exact absurd hr h
      | cons j ks =>
        obtain ⟨e, h1, h2, h3⟩ := hr
        refine ⟨j, mem_entryNums.2 ⟨e, h1, by simpa using h2⟩, Finset.mem_image.2 ⟨ks, ?_, rfl⟩⟩
        rw [mem_runs, endOf_eq h1, h2]; exact h3
    · rintro ⟨j, hj, hm⟩
      obtain ⟨ks, hk, rfl⟩ := Finset.mem_image.1 hm
      obtain ⟨e, h1, h2⟩ := mem_entryNums.1 hj
      rw [mem_runs, endOf_eq h1] at hk
      have h2 : e.pos = a := by simpa using h2
      exact ⟨e, h1, h2, h2 ▸ hk⟩
  unfold total
  rw [this, Finset.sum_biUnion]
  · apply Finset.sum_congr rfl
    intro j _
    rw [Finset.sum_image (by intro x _ y _ hxy; exact (List.cons.inj hxy).2), Finset.mul_sum]
    apply Finset.sum_congr rfl
    intro js _
    rw [weight_cons]
  · intro i _ j _ hij
    rw [Function.onFun, Finset.disjoint_left]
    intro js h1 h2
    obtain ⟨x, _, hx⟩ := Finset.mem_image.1 h1
    obtain ⟨y, _, hy⟩ := Finset.mem_image.1 h2
    exact hij (List.cons.inj (hx.trans hy.symm)).1

/-- Sum of the weights of the segmentations through token `j`. -/
theorem total_through (hi : Inside n es) {j : Nat} {e : Entry ℝ} (he : es[j]? = some e) (a b : Nat) :
    (∑ js ∈ (runs hi a b).filter (fun js => j ∈ js), weight es js) =
      total hi a e.pos * Real.exp (entryScore es j) * total hi (e.pos + e.len) b := by
  unfold total
  rw [Finset.sum_mul, Finset.sum_mul_sum, ← Finset.sum_product']
  symm
  refine Finset.sum_nbij (fun p => p.1 ++ j :: p.2) ?_ ?_ ?_ ?_
  · rintro ⟨x, y⟩ hxy
    rw [Finset.mem_product, mem_runs, mem_runs] at hxy
    rw [Finset.mem_filter, mem_runs]
    exact ⟨Run.append.2 ⟨e.pos, hxy.1, e, he, rfl, hxy.2⟩, by simp⟩
  · rintro ⟨x, y⟩ hxy ⟨x', y'⟩ hxy' heq
    rw [Finset.mem_coe, Finset.mem_product, mem_runs, mem_runs] at hxy hxy'
    have hlen := (hi e (List.mem_of_getElem? he)).1
    have notin : ∀ z : List Nat, Run es a z e.pos → j ∉ z := by
      intro z hz hm
      have := hz.end_le j hm e he
      omega
    have h1 := notin x hxy.1
    have h2 := notin x' hxy'.1
    have key : ∀ (x x' y y' : List Nat), j ∉ x → j ∉ x' → x ++ j :: y = x' ++ j :: y' → x = x' ∧ y = y' := by
      intro x
      induction x with
      | nil =>
        intro x' y y' _ h2 h
        cases x' with
        | nil => exact ⟨rfl, (List.cons.inj h).2⟩
        | cons c x' => exact absurd (List.cons.inj h).1 (fun e => h2 (by simp [e]))
      | cons c x ih =>
        intro x' y y' h1 h2 h
        cases x' with
        | nil => exact absurd (List.cons.inj h).1 (fun e => h1 (by simp [e]))
        | cons d x' =>
          simp only [List.mem_cons, not_or] at h1 h2
          obtain ⟨g1, g2⟩ := List.cons.inj h
          obtain ⟨g3, g4⟩ := ih x' y y' h1.2 h2.2 g2
          exact ⟨by rw [g1, g3], g4⟩
    obtain ⟨h3, h4⟩ := key x x' y y' h1 h2 heq
    rw [h3, h4]
  · intro js hjs
    rw [Finset.mem_coe, Finset.mem_filter, mem_runs] at hjs
    obtain ⟨x, y, rfl⟩ := List.append_of_mem hjs.2
    obtain ⟨c, h1, e', h2, h3, h4⟩ := Run.append.1 hjs.1
    rw [he] at h2
    simp only [Option.some.injEq] at h2
    subst h2
    refine ⟨(x, y), ?_, rfl⟩
    rw [Finset.mem_coe, Finset.mem_product, mem_runs, mem_runs]
    exact ⟨h3 ▸ h1, h3 ▸ h4⟩
  · rintro ⟨x, y⟩ _
    rw [weight_append, weight_cons, mul_assoc]

/-- Sums over `nodesWhere`. -/
theorem nodesWhere_nodup {c : Entry ℝ → Bool} : (nodesWhere c es).Nodup := by
  unfold nodesWhere
  have : ∀ (l : List (Entry ℝ)) (k : Nat), ((l.zipIdx k).filterMap (fun x => if c x.1 then some x.2 else none)).Nodup ∧
      ∀ x ∈ (l.zipIdx k).filterMap (fun x => if c x.1 then some x.2 else none), k ≤ x := by
    intro l
    induction l with
    | nil => intro k; simp
    | cons e l ih =>
      intro k
      obtain ⟨h1, h2⟩ := ih (k + 1)
      rw [List.zipIdx_cons, List.filterMap_cons]
      by_cases hc : c e = true
      · simp only [hc, if_true]
        refine ⟨List.nodup_cons.2 ⟨fun hm => ?_, h1⟩, ?_⟩
        · have := h2 k hm; omega
        · intro x hx
          rcases List.mem_cons.1 hx with rfl | hx
          · exact Nat.le_refl _
          · have := h2 x hx; omega
      · simp only [hc, Bool.false_eq_true, if_false]
        refine ⟨h1, ?_⟩
        intro x hx
        have := h2 x hx; omega
  exact (this es 2).1

theorem sum_nodesWhere (c : Entry ℝ → Bool) (g : Nat → ℝ) :
    ((nodesWhere c es).map g).sum = ∑ j ∈ entryNums es c, g (j + 2) := by
  rw [← List.sum_toFinset g nodesWhere_nodup]
  symm
  refine Finset.sum_nbij (fun j => j + 2) ?_ ?_ ?_ ?_
  · intro j hj
    rw [List.mem_toFinset, mem_nodesWhere]
    obtain ⟨e, h1, h2⟩ := mem_entryNums.1 hj
    exact ⟨j, e, rfl, h1, h2⟩
  · intro x _ y _ h
    simpa using h
  · intro k hk
    rw [Finset.mem_coe, List.mem_toFinset, mem_nodesWhere] at hk
    obtain ⟨j, e, rfl, h1, h2⟩ := hk
    exact ⟨j, mem_entryNums.2 ⟨e, h1, h2⟩, rfl⟩
  · intro j _; rfl

end Tokengeex

import Verif.Proofs.MarginalF64
import Verif.Props.GenerateF64
import Verif.Props.Marginal
import Mathlib.Analysis.Complex.ExponentialBounds
/-
`populate_marginal` with doubles (C36).
-/
namespace Tokengeex
open Spec

/-- **C36** With doubles, and whatever the accuracy of the logarithm and of the exponential function of the platform, on every
lattice obtained by re-initialising after any history and inserting any non-empty tokens inside the sentence, provided every
token lies on some segmentation and all the scores are finite: `populate_marginal` does not panic, the constant it returns is a
finite number close to the logarithm of the probability of the sentence, and each of the counts, if finite before, is finite
afterwards and has grown by about the expected number of occurrences of its token in a segmentation drawn according to the
scores.  With `N` nodes and `δ` the error of one `log_sum_exp`, the error of the constant is at most `N δ`, the relative error
of the growth at most `12 N δ`, and there is an absolute error of at most `N` times that of the exponential function plus `N`
roundings of the count. -/
theorem C36_marginal_doubles [Elementary] (ε η : ℝ) (hln : LnWithin ε) (hexp : ExpWithin η) (hε : ε ≤ 1 / 8) (hη : η ≤ 1 / 8)
    (p p' : VecPool) (l l₀ l₁ : Lattice F64) (hist : History p l) (sentence : List UInt8)
    (es : List (Entry F64)) (hfrom : l.from_ sentence p = .ok (l₀, p')) (hes : Inside sentence.length es)
    (hins : es.foldlM (fun l e => Lattice.insert l e.pos e.id e.len e.score) l₀ = .ok l₁)
    (hgaps : NoGaps sentence.length es) (hdead : NoDeadEnds sentence.length es)
    (S : ℝ) (hS0 : 0 ≤ S) (hscores : ∀ e ∈ es, Spec.Finite e.score ∧ |real e.score| ≤ S)
    (segs : Finset (List Nat)) (hsegs : AllSegmentations sentence.length (realEntries es) segs)
    (expected : List F64) (hid : ∀ e ∈ es, e.id < expected.length)
    (C : ℝ) (hC : C ≤ 2 ^ 48) (hcounts : ∀ x ∈ expected, Spec.Finite x ∧ |real x| ≤ C)
    (N δ : ℝ) (hN : N = es.length + 2) (hδ : δ = ε + 2 * η + (sentence.length * (S + Real.log N) + 320) / 2 ^ 53)
    (hsmall : N * δ ≤ 1 / 24) :
    ∃ expected' z, l₁.populateMarginal expected = .ok (expected', z) ∧
      Spec.Finite z ∧ |real z - Real.log (partition (realEntries es) segs)| ≤ N * δ ∧
      expected'.length = expected.length ∧
      ∀ i old, expected[i]? = some old → ∃ new, expected'[i]? = some new ∧ Spec.Finite new ∧
        |real new - (real old + expectedCount (realEntries es) segs i)| ≤
          12 * (N * δ) * expectedCount (realEntries es) segs i + N * (η + (C + 2 * N) / 2 ^ 53) := by
  have hl1 : l₁ = latticeOf sentence es := by
    obtain ⟨_, h1, _⟩ := from_clean l sentence (history_clean hist)
    rw [hfrom] at h1
    simp only [Except.ok.injEq, Prod.mk.injEq] at h1
    rw [h1.1, insertAll sentence es hes] at hins
    simpa using hins.symm
  subst hl1
  have hi' := inside_real hes
  have hg' := noGaps_real hgaps
  have hd' := noDeadEnds_real hdead
  have hSr := scores_real hscores
  have hu : ∀ x : ℝ, x / 2 ^ 53 = F64.u * x := by
    intro x
    unfold F64.u
    ring
  have hu0 := F64.u_pos
  have hNn : ((es.length + 2 : Nat) : ℝ) = N := by rw [hN]; push_cast; ring
  have hN2 : 2 ≤ N := by
    rw [hN]
    have : (0 : ℝ) ≤ es.length := Nat.cast_nonneg _
    linarith
  have hη0 := F64.expWithin_nonneg hexp
  have hε0 := F64.lnWithin_nonneg hln
  set M := sentence.length * (S + Real.log N) with hMdef
  have hlogN : 0 ≤ Real.log N := Real.log_nonneg (by linarith)
  have hM0 : 0 ≤ M := by rw [hMdef]; positivity
  rw [hu] at hδ
  simp only [hu]
  have huM := mul_nonneg hu0.le hM0
  have hδM : F64.u * (M + 320) ≤ δ := by rw [hδ]; linarith
  have hδ0 : 0 ≤ δ := le_trans (mul_nonneg hu0.le (by linarith)) hδM
  have hδs : δ ≤ 1 / 48 := by nlinarith
  have hMs : M ≤ 2 ^ 50 := by
    have h1 : F64.u * M ≤ 1 / 8 := by nlinarith
    have h2 : M = 2 ^ 53 * (F64.u * M) := by unfold F64.u; ring
    rw [h2]
    linarith
  have hNs : F64.u * N ≤ 1 / 1000 := by nlinarith
  obtain ⟨alpha, A, ha1, ha2, ha3⟩ := forwardTable_doubles hln hexp hε hη hes hgaps hi' hscores hS0 (M := M) (by rw [hNn]) hMs
    (by rw [hNn, ← hδ]; linarith)
  obtain ⟨beta, B, hb1, hb2, hb3⟩ := backwardTable_doubles hln hexp hε hη hes hdead hi' hscores hS0 (M := M) (by rw [hNn]) hMs
    (by rw [hNn, ← hδ]; linarith)
  rw [hNn, ← hδ] at ha3 hb3
  have hZ := total_pos hi' hg'
  obtain ⟨hsr, hpart⟩ := partition_eq hi' hsegs
  -- the expected counts
  have hE : HoldsF expected expected.length (fun i => expected[i]?.getD (F64.num false 0)) := by
    refine ⟨rfl, fun i hi => ?_⟩
    simp only [List.getElem?_eq_getElem hi, Option.getD_some]
  obtain ⟨expected', E', he1, he2, he3⟩ := addMarginals_any (sentence := sentence) (A 1) ha2 hb2 hid
    ((List.range sentence.length).flatMap (lBegins sentence.length es)) expected _
    (by
      intro k hk
      obtain ⟨q, hq, hk⟩ := List.mem_flatMap.1 hk
      rw [List.mem_range] at hq
      rcases mem_lBegins.1 hk with ⟨_, h⟩ | ⟨j, e, h1, h2, _⟩
      · omega
      · exact ⟨j, e, h1, h2⟩) hE
  have hz := ha3 sentence.length (Nat.le_refl _) 1 (graph_lattice hes).eos
  have hlog : ∀ a b, b ≤ sentence.length → 0 < total hi' a b → Real.log (total hi' a b) ≤ M := by
    intro a b hb hpos
    have := log_total_upper hi' hSr hS0 a hb hpos
    rw [realEntries_length, hNn] at this
    exact this
  have hlowM : ∀ q : Nat, q ≤ sentence.length → S * q ≤ M := by
    intro q hq
    have hq' : (q : ℝ) ≤ sentence.length := by exact_mod_cast hq
    have hq0 : (0 : ℝ) ≤ q := Nat.cast_nonneg _
    rw [hMdef]
    nlinarith
  have hcM : |Real.log (total hi' 0 sentence.length)| ≤ M := by
    rw [abs_le]
    refine ⟨?_, hlog _ _ (le_refl _) hZ⟩
    have h1 := total_lower hi' hg' hSr hS0 sentence.length (le_refl _) (.inl rfl)
    rw [← Real.le_log_iff_exp_le hZ] at h1
    linarith [hlowM sentence.length (le_refl _)]
  -- the term of token j
  set term : Nat → ℝ := fun j => total hi' 0 (posOf (realEntries es) j) * Real.exp (entryScore (realEntries es) j) *
    total hi' (endOf (realEntries es) j) sentence.length / total hi' 0 sentence.length with hterm
  have hnode : ∀ j e, es[j]? = some e → 0 ≤ term j ∧ term j ≤ 1 ∧
      F64.Near (nodeTerm es A B (A 1) (j + 2)) (term j) (η + 12 * (N * δ) * term j) := by
    intro j e he
    have hrj : (realEntries es)[j]? = some ⟨e.pos, e.id, e.len, real e.score⟩ := by simp [realEntries, he]
    obtain ⟨hl0, hle⟩ := hes e (List.mem_of_getElem? he)
    have hmb : j + 2 ∈ lBegins sentence.length es e.pos := mem_lBegins.2 (.inr ⟨j, e, rfl, he, rfl⟩)
    have hme : j + 2 ∈ lEnds es (e.pos + e.len) := mem_lEnds.2 (.inr ⟨j, e, rfl, he, rfl⟩)
    have a1 := ha3 e.pos (by omega) _ hmb
    have b1 := hb3 (e.pos + e.len) hle _ hme
    have hla := total_lower hi' hg' hSr hS0 e.pos (by omega) (.inr ⟨_, List.mem_of_getElem? hrj, rfl⟩)
    have hlb := total_lower_back hi' hd' hSr hS0 (sentence.length - (e.pos + e.len)) (e.pos + e.len) (by omega) (.inr ⟨_, List.mem_of_getElem? hrj, rfl⟩)
    have hpa := lt_of_lt_of_le (Real.exp_pos _) hla
    have hpb := lt_of_lt_of_le (Real.exp_pos _) hlb
    rw [← Real.le_log_iff_exp_le hpa] at hla
    rw [← Real.le_log_iff_exp_le hpb] at hlb
    have hes' : entryScore (realEntries es) j = real e.score := by simp [entryScore, hrj]
    have hpos : posOf (realEntries es) j = e.pos := posOf_eq hrj
    have hend : endOf (realEntries es) j = e.pos + e.len := endOf_eq hrj
    have hthrough := total_through hi' hrj 0 sentence.length
    have hle1 : total hi' 0 e.pos * Real.exp (real e.score) * total hi' (e.pos + e.len) sentence.length ≤ total hi' 0 sentence.length := by
      rw [hes'] at hthrough
      rw [← hthrough]
      exact Finset.sum_le_sum_of_subset_of_nonneg (Finset.filter_subset _ _) (fun js _ _ => (weight_pos js).le)
    have hval : term j = Real.exp (Real.log (total hi' 0 e.pos) + real e.score + Real.log (total hi' (e.pos + e.len) sentence.length) -
        Real.log (total hi' 0 sentence.length)) := by
      rw [hterm]
      simp only
      rw [hpos, hend, hes', Real.exp_sub, Real.exp_add, Real.exp_add, Real.exp_log hpa, Real.exp_log hpb, Real.exp_log hZ]
    have ht1 : term j ≤ 1 := by
      rw [hterm]
      simp only
      rw [hpos, hend, hes', div_le_one hZ]
      exact hle1
    have ht0 : 0 ≤ term j := by rw [hval]; exact (Real.exp_pos _).le
    refine ⟨ht0, ht1, ?_⟩
    have hlen1 : (1 : ℝ) ≤ sentence.length := by exact_mod_cast (by omega : 1 ≤ sentence.length)
    have hN3 : 3 ≤ N := by
      have hjl := (List.getElem?_eq_some_iff.1 he).1
      have : (1 : ℝ) ≤ es.length := by exact_mod_cast (by omega : 1 ≤ es.length)
      rw [hN]
      linarith
    obtain ⟨hsf, hsS⟩ := hscores e (List.mem_of_getElem? he)
    have hSM : S ≤ M := by
      have := hlowM 1 (by omega)
      simpa using this
    rw [hval]
    rw [hval] at ht1
    have hsc : lScore es (j + 2) = e.score := by simp [lScore, he]
    have hnt : nodeTerm es A B (A 1) (j + 2) =
        Elementary.exp (F64.sub (F64.add (F64.add (A (j + 2)) e.score) (B (j + 2))) (A 1)) := by
      unfold nodeTerm
      rw [hsc]
      rfl
    rw [hnt]
    refine F64.near_nodeTerm hexp a1 hsf b1 hz ?_ (le_trans hsS hSM) ?_ hcM (by linarith) ?_ hMs ?_
    · rw [abs_le]
      exact ⟨by linarith [hlowM e.pos (by omega)], hlog _ _ (by omega) hpa⟩
    · rw [abs_le]
      exact ⟨by linarith [hlowM (sentence.length - (e.pos + e.len)) (by omega)], hlog _ _ (le_refl _) hpb⟩
    · nlinarith
    · rw [← Real.exp_le_exp, Real.exp_zero]
      exact ht1
  refine ⟨expected', A 1, ?_, hz.1, by rw [hpart]; exact hz.2, he2.1, ?_⟩
  · unfold Lattice.populateMarginal
    rw [ha1, hb1]
    simp only [res_bind_ok]
    rw [show (latticeOf sentence es).eosIdx = 1 from rfl, ha2.get (by omega)]
    simp only [res_bind_ok]
    have : ∀ (ps : List Nat) (ex : List F64), (∀ q ∈ ps, q ≤ sentence.length) →
        ps.foldlM (fun expected pos => do
          let b ← idx (latticeOf sentence es).beginNodes pos
          b.foldlM (Lattice.addMarginal (latticeOf sentence es).nodes alpha beta (A 1)) expected) ex =
        ps.foldlM (fun s a => (lBegins sentence.length es a).foldlM
          (Lattice.addMarginal (latticeOf sentence es).nodes alpha beta (A 1)) s) ex := by
      intro ps
      induction ps with
      | nil => intro _ _; rfl
      | cons q ps ih =>
        intro ex hps
        rw [List.foldlM_cons, List.foldlM_cons, idx_of_getElem? (latticeOf_begin sentence es q (hps q (by simp)))]
        simp only [res_bind_ok]
        congr 1
        funext t
        exact ih t (fun x hx => hps x (by simp [hx]))
    rw [show (latticeOf sentence es).sentence.length = sentence.length from rfl,
      this _ _ (fun q hq => by rw [List.mem_range] at hq; omega), ← foldlM_flatMap', he1]
    rfl
  · intro i old hold
    have hil := (List.getElem?_eq_some_iff.1 hold).1
    obtain ⟨hof, hoC⟩ := hcounts old (List.mem_of_getElem? hold)
    have hC0 : 0 ≤ C := le_trans (abs_nonneg _) hoC
    refine ⟨E' i, he2.2 i hil, ?_⟩
    rw [he3 i]
    simp only [hold, Option.getD_some]
    set ks := (List.range sentence.length).flatMap (lBegins sentence.length es) with hks
    have hkmem : ∀ k ∈ ks, ∃ j e, k = j + 2 ∧ es[j]? = some e := by
      intro k hk
      obtain ⟨q, hq, hk⟩ := List.mem_flatMap.1 hk
      rw [List.mem_range] at hq
      rcases mem_lBegins.1 hk with ⟨_, h⟩ | ⟨j, e, h1, h2, _⟩
      · omega
      · exact ⟨j, e, h1, h2⟩
    have hsumks : ∀ g : Nat → ℝ, ((ks.filter fun k => nodeId es k == i).map g).sum =
        ∑ j ∈ Finset.range es.length, if idOf (realEntries es) j = i then g (j + 2) else 0 := by
      intro g
      have h1 := sum_flatMap_begins hi' (fun k => if nodeId es k == i then g k else 0)
      rw [realEntries_length] at h1
      simp only [show lBegins sentence.length (realEntries es) = lBegins sentence.length es from funext lBegins_real] at h1
      rw [sum_filter_map, hks, h1]
      apply Finset.sum_congr rfl
      intro j _
      rw [idOf_real]
      by_cases h : nodeId es (j + 2) = i
      · rw [if_pos h, if_pos (by simpa using h)]
      · rw [if_neg h, if_neg (by simpa using h)]
    have hcount := expectedCount_eq hi' hsegs i
    rw [realEntries_length] at hcount
    have hBu : F64.u * (C + 2 * N) ≤ 1 / 8 := by
      have h1 : F64.u * C ≤ F64.u * 2 ^ 48 := mul_le_mul_of_nonneg_left hC hu0.le
      have h2 : F64.u * 2 ^ 48 = 1 / 32 := by unfold F64.u; norm_num
      linarith
    have hBs : C + 2 * N ≤ 2 ^ 100 := by
      have h2 : C + 2 * N = 2 ^ 53 * (F64.u * (C + 2 * N)) := by unfold F64.u; ring
      rw [h2]
      have : (2 : ℝ) ^ 53 * (1 / 8) ≤ 2 ^ 100 := by norm_num
      linarith
    have hB0 : 0 ≤ F64.u * (C + 2 * N) := mul_nonneg hu0.le (by linarith)
    have hnear := F64.near_foldl hBs (by linarith) (nodeTerm es A B (A 1)) (fun k => term (k - 2)) (fun k => η + 12 * (N * δ) * term (k - 2))
      (ks.filter fun k => nodeId es k == i) old (real old) 0 (Pruner.near_self hof)
      (by
        intro k hk
        obtain ⟨j, e, rfl, he⟩ := hkmem k (List.mem_filter.1 hk).1
        exact (hnode j e he).2.2)
      (by
        rw [hsumks]
        have hle : (∑ j ∈ Finset.range es.length, if idOf (realEntries es) j = i then
            |term (j + 2 - 2)| + (η + 12 * (N * δ) * term (j + 2 - 2)) + F64.u * (C + 2 * N) else 0) ≤ ∑ j ∈ Finset.range es.length, (2 : ℝ) := by
          apply Finset.sum_le_sum
          intro j hj
          rw [Finset.mem_range] at hj
          obtain ⟨t0, t1, _⟩ := hnode j _ (List.getElem?_eq_getElem hj)
          by_cases h : idOf (realEntries es) j = i
          · rw [if_pos h, Nat.add_sub_cancel, abs_of_nonneg t0]
            have h1 : 12 * (N * δ) * term j ≤ 12 * (N * δ) * 1 := mul_le_mul_of_nonneg_left t1 (by nlinarith)
            linarith
          · rw [if_neg h]
            norm_num
        rw [Finset.sum_const, Finset.card_range, nsmul_eq_mul] at hle
        have : N = es.length + 2 := hN
        linarith)
    rw [zero_add, hsumks, hsumks] at hnear
    simp only [Nat.add_sub_cancel] at hnear
    refine ⟨hnear.1, ?_⟩
    have e1 : (∑ j ∈ Finset.range es.length, if idOf (realEntries es) j = i then term j else 0) = expectedCount (realEntries es) segs i := by
      rw [hcount]
    have e2 : (∑ j ∈ Finset.range es.length, if idOf (realEntries es) j = i then
        η + 12 * (N * δ) * term j + F64.u * (C + 2 * N) else 0) ≤
        12 * (N * δ) * expectedCount (realEntries es) segs i + N * (η + F64.u * (C + 2 * N)) := by
      rw [← e1, Finset.mul_sum]
      have e3 : N * (η + F64.u * (C + 2 * N)) ≥ ∑ j ∈ Finset.range es.length, (η + F64.u * (C + 2 * N)) := by
        rw [Finset.sum_const, Finset.card_range, nsmul_eq_mul]
        exact mul_le_mul_of_nonneg_right (by rw [hN]; linarith) (by linarith)
      refine le_trans ?_ (add_le_add (le_refl _) e3)
      rw [← Finset.sum_add_distrib]
      apply Finset.sum_le_sum
      intro j _
      by_cases h : idOf (realEntries es) j = i
      · rw [if_pos h, if_pos h]
        linarith
      · rw [if_neg h, if_neg h]
        linarith
    rw [e1] at hnear
    exact le_trans hnear.2 e2

/-! ### The hypotheses can be met -/

/-- An exponential function for non-vacuity: the value rounded down to a multiple of 2^-42. -/
noncomputable def floorExp (x : F64) : F64 := .num false (⌊Real.exp (real x) * 2 ^ 42⌋.natAbs * 2 ^ 1032)

theorem floorExp_within {x : F64} (h1 : real x ≤ 1) :
    Spec.Finite (floorExp x) ∧ |real (floorExp x) - Real.exp (real x)| ≤ (1 / 2) ^ 42 := by
  have h0 : 0 ≤ ⌊Real.exp (real x) * 2 ^ 42⌋ := Int.floor_nonneg.2 (mul_nonneg (Real.exp_pos _).le (by positivity))
  have h2 := Int.floor_le (Real.exp (real x) * 2 ^ 42)
  have h3 := Int.lt_floor_add_one (Real.exp (real x) * 2 ^ 42)
  have h4 : Real.exp (real x) ≤ 3 := (Real.exp_le_exp.2 h1).trans ((le_of_lt Real.exp_one_lt_d9).trans (by norm_num))
  have hr : real (floorExp x) = (⌊Real.exp (real x) * 2 ^ 42⌋ : ℝ) * (1 / 2) ^ 42 := by
    have := real_signed ⌊Real.exp (real x) * 2 ^ 42⌋ 1032 (by omega)
    rw [decide_eq_false (by omega)] at this
    exact this
  constructor
  · refine finite_shifted ?_ (by omega)
    have : (⌊Real.exp (real x) * 2 ^ 42⌋ : ℝ) < ((2 ^ 53 : Int) : ℝ) := by
      push_cast
      linarith
    have := Int.cast_lt.1 this
    omega
  · rw [hr, abs_le]
    generalize (⌊Real.exp (real x) * 2 ^ 42⌋ : ℝ) = z at *
    generalize Real.exp (real x) = y at *
    constructor <;> norm_num at h2 h3 ⊢ <;> linarith

/-- There are functions as the theorems want them. -/
theorem elementary_exists : ∃ E : Elementary, @LnWithin E ((1 / 2) ^ 42) ∧ @LnMonotone E ∧ @ExpWithin E ((1 / 2) ^ 42) := by
  obtain ⟨E, h1, h2⟩ := ln_exists
  exact ⟨⟨floorExp, E.ln⟩, h1, h2, fun x _ h => floorExp_within h⟩

/-- The sentence `"ab"` with the tokens `"a"`, `"ab"` and `"b"`, of scores -1, -2 and -3. -/
def margDoubles : List (Entry F64) :=
  [⟨0, 0, 1, F64.neg (F64.whole 1)⟩, ⟨0, 1, 2, F64.neg (F64.whole 2)⟩, ⟨1, 2, 1, F64.neg (F64.whole 3)⟩]

theorem negWhole {n : Nat} (h : n ≤ 3) : Spec.Finite (F64.neg (F64.whole n)) ∧ |real (F64.neg (F64.whole n))| ≤ 3 := by
  obtain ⟨g1, g2⟩ := F64.finite_real_neg (F64.whole_finite (n := n) (by omega))
  refine ⟨g1, ?_⟩
  rw [g2, abs_neg, F64.real_whole, Nat.abs_cast]
  exact_mod_cast h

theorem margDoubles_mem {e : Entry F64} (h : e ∈ margDoubles) : ∃ n : Nat, n ≤ 3 ∧
    ((e = ⟨0, 0, 1, F64.neg (F64.whole n)⟩) ∨ (e = ⟨0, 1, 2, F64.neg (F64.whole n)⟩) ∨ (e = ⟨1, 2, 1, F64.neg (F64.whole n)⟩)) := by
  rcases List.mem_cons.1 h with rfl | h
  · exact ⟨1, by omega, .inl rfl⟩
  rcases List.mem_cons.1 h with rfl | h
  · exact ⟨2, by omega, .inr (.inl rfl)⟩
  rcases List.mem_cons.1 h with rfl | h
  · exact ⟨3, by omega, .inr (.inr rfl)⟩
  · exact absurd h (List.not_mem_nil)

/-- Non-vacuity: there are an exponential function and a logarithm for which the theorem applies to `"ab"`. -/
example : ∃ (_ : Elementary) (l : Lattice F64) (expected' : List F64) (z : F64),
    l.populateMarginal [.num false 0, .num false 0, .num false 0] = .ok (expected', z) ∧ Spec.Finite z ∧ expected'.length = 3 := by
  obtain ⟨E, h1, _, h2⟩ := elementary_exists
  have hi : Inside 2 margDoubles := by
    intro e he
    obtain ⟨n, _, rfl | rfl | rfl⟩ := margDoubles_mem he <;> simp
  have m0 : (⟨0, 0, 1, F64.neg (F64.whole 1)⟩ : Entry F64) ∈ margDoubles := List.mem_cons_self ..
  have m2 : (⟨1, 2, 1, F64.neg (F64.whole 3)⟩ : Entry F64) ∈ margDoubles :=
    List.mem_cons_of_mem _ (List.mem_cons_of_mem _ (List.mem_cons_self ..))
  have hg : NoGaps 2 margDoubles := by
    intro p hp
    have hle : p ≤ 2 := by
      rcases hp with rfl | ⟨e, he, rfl⟩
      · exact Nat.le_refl _
      · obtain ⟨n, _, rfl | rfl | rfl⟩ := margDoubles_mem he <;> simp
    rcases Nat.eq_zero_or_pos p with h | h
    · exact .inl h
    rcases Nat.lt_or_ge p 2 with h' | h'
    · exact .inr ⟨_, m0, by simp; omega⟩
    · exact .inr ⟨_, m2, by simp; omega⟩
  have hd : NoDeadEnds 2 margDoubles := by
    intro p hp
    have hle : p ≤ 2 := by
      rcases hp with rfl | ⟨e, he, rfl⟩
      · omega
      · obtain ⟨n, _, rfl | rfl | rfl⟩ := margDoubles_mem he <;> simp
    rcases Nat.lt_or_ge p 1 with h | h
    · exact .inr ⟨_, m0, by simp; omega⟩
    rcases Nat.lt_or_ge p 2 with h' | h'
    · exact .inr ⟨_, m2, by simp; omega⟩
    · exact .inl (by omega)
  obtain ⟨segs, hsegs⟩ := segmentations_exist 2 (realEntries margDoubles) (inside_real hi)
  have hist : History (VecPool.withCapacity 0) (Lattice.new : Lattice F64) := .start 0
  obtain ⟨pool', hfrom, _⟩ := from_clean (Lattice.new : Lattice F64) [97, 98] (history_clean hist)
  have hlog : Real.log 5 ≤ 4 := by
    have := Real.log_le_sub_one_of_pos (show (0 : ℝ) < 5 by norm_num)
    linarith
  have hlen : margDoubles.length = 3 := rfl
  have zero : Spec.Finite (.num false 0) ∧ |real (.num false 0)| ≤ 0 := by
    obtain ⟨z1, z2⟩ := zero_double
    exact ⟨z1, by rw [z2, abs_zero]⟩
  obtain ⟨ex, z, e1, e2, _, e4, _⟩ := @C36_marginal_doubles E _ _ h1 h2 (by norm_num) (by norm_num) _ _ _ _ _ hist [97, 98] margDoubles hfrom hi
    (insertAll [97, 98] margDoubles hi) hg hd 3 (by norm_num)
    (fun e he => by obtain ⟨n, hn, rfl | rfl | rfl⟩ := margDoubles_mem he <;> exact negWhole hn)
    segs hsegs [.num false 0, .num false 0, .num false 0]
    (fun e he => by obtain ⟨n, _, rfl | rfl | rfl⟩ := margDoubles_mem he <;> simp) 0 (by norm_num)
    (fun x hx => by
      simp only [List.mem_cons, List.not_mem_nil, or_false, or_self] at hx
      rw [hx]
      exact zero) 5 _ (by rw [hlen]; norm_num) rfl (by
      simp only [List.length_cons, List.length_nil]
      push_cast
      norm_num
      linarith)
  exact ⟨E, _, ex, z, e1, e2, e4⟩

end Tokengeex

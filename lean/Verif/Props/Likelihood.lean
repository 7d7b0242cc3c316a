import Verif.Spec.Likelihood
import Verif.Props.Reestimate
import Verif.Props.EM
import Verif.Props.Size
import Verif.Props.Relative
import Mathlib.Data.List.GetD
import Verif.Proofs.PsiLip
/-
C113: whether EM makes the corpus more likely.
-/
namespace Tokengeex
open Spec ScoreOps

/-- Jensen's inequality for one piece. -/
theorem log_sum_ge (cuts : Finset (List Nat)) (a b : List Nat → ℝ) :
    (∑ c ∈ cuts, Real.exp (a c) * (b c - a c)) / ∑ c ∈ cuts, Real.exp (a c) ≤
      Real.log (∑ c ∈ cuts, Real.exp (b c)) - Real.log (∑ c ∈ cuts, Real.exp (a c)) := by
  rcases cuts.eq_empty_or_nonempty with rfl | hne
  · simp
  · have hZ : 0 < ∑ c ∈ cuts, Real.exp (a c) := Finset.sum_pos (fun _ _ => Real.exp_pos _) hne
    have hZ' : 0 < ∑ c ∈ cuts, Real.exp (b c) := Finset.sum_pos (fun _ _ => Real.exp_pos _) hne
    generalize hZe : ∑ c ∈ cuts, Real.exp (a c) = Z at *
    generalize hm : (∑ c ∈ cuts, Real.exp (a c) * (b c - a c)) / Z = m
    have hm' : ∑ c ∈ cuts, Real.exp (a c) * (b c - a c) = m * Z := by rw [← hm]; field_simp
    have h1 : Z * Real.exp m ≤ ∑ c ∈ cuts, Real.exp (b c) := by
      have h2 : ∀ c ∈ cuts, Real.exp m * (Real.exp (a c) * (1 + (b c - a c) - m)) ≤ Real.exp (b c) := by
        intro c _
        have h3 := Real.add_one_le_exp (b c - a c - m)
        have h4 : Real.exp (b c) = Real.exp m * (Real.exp (a c) * Real.exp (b c - a c - m)) := by
          rw [← Real.exp_add, ← Real.exp_add]; congr 1; ring
        rw [h4]
        exact mul_le_mul_of_nonneg_left (mul_le_mul_of_nonneg_left (by linarith) (Real.exp_pos _).le) (Real.exp_pos _).le
      refine le_trans (le_of_eq ?_) (Finset.sum_le_sum h2)
      rw [← Finset.mul_sum]
      have : ∑ c ∈ cuts, Real.exp (a c) * (1 + (b c - a c) - m) =
          (∑ c ∈ cuts, Real.exp (a c)) * (1 - m) + ∑ c ∈ cuts, Real.exp (a c) * (b c - a c) := by
        rw [Finset.sum_mul, ← Finset.sum_add_distrib]
        exact Finset.sum_congr rfl fun c _ => by ring
      rw [this, hm', hZe]
      ring
    have h5 := Real.log_le_log (by positivity) h1
    rw [Real.log_mul hZ.ne' (Real.exp_pos _).ne', Real.log_exp] at h5
    linarith

/-- The sum over the tokens of a cut, sorted by token. -/
theorem sum_by_token (n : Nat) (f : Nat → ℝ) (ids : List Nat) (h : ∀ i ∈ ids, i < n) :
    (ids.map f).sum = ∑ i ∈ Finset.range n, (ids.count i : ℝ) * f i := by
  induction ids with
  | nil => simp
  | cons i ids ih =>
    rw [List.map_cons, List.sum_cons, ih (fun j hj => h j (List.mem_cons_of_mem _ hj))]
    have : ∀ j, (((i :: ids).count j : ℕ) : ℝ) * f j = (ids.count j : ℝ) * f j + if i = j then f j else 0 := by
      intro j
      rw [List.count_cons]
      by_cases e : i = j
      · simp [e]; ring
      · simp [e]
    rw [Finset.sum_congr rfl fun j _ => this j, Finset.sum_add_distrib]
    rw [Finset.sum_ite_eq, if_pos (Finset.mem_range.2 (h i List.mem_cons_self))]
    ring

theorem map_sub_sum (f g : Nat → ℝ) (ids : List Nat) : (ids.map f).sum - (ids.map g).sum = (ids.map fun i => f i - g i).sum := by
  induction ids with
  | nil => simp
  | cons i ids ih => simp only [List.map_cons, List.sum_cons]; rw [← ih]; ring

theorem likelihood_spells_lt {v : List (ScoredToken ℝ)} {bs : List UInt8} {ids : List Nat} (h : Spells v ids bs) : ∀ i ∈ ids, i < v.length := by
  obtain ⟨toks, e, _⟩ := h
  intro i hi
  have : v[i]? ∈ ids.map (fun i => v[i]?) := List.mem_map_of_mem hi
  rw [e] at this
  obtain ⟨t, _, ht⟩ := List.mem_map.1 this
  exact (List.getElem?_eq_some_iff.1 ht.symm).1

/-- No piece is expected to need more tokens than it has bytes. -/
theorem uses_le {v : List (ScoredToken ℝ)} (hn : NoDuplicates v) (hne : ∀ t ∈ v, t.value ≠ []) {bs : List UInt8} {cuts : Finset (List Nat)}
    (hc : AllCuts v bs cuts) : ∑ i ∈ Finset.range v.length, expectedUses v cuts i ≤ (bs.length : ℝ) := by
  unfold expectedUses
  rw [← Finset.sum_div, Finset.sum_comm]
  have hZ : 0 ≤ ∑ ids ∈ cuts, cutWeight v ids := Finset.sum_nonneg fun _ _ => (Real.exp_pos _).le
  refine div_le_of_le_mul₀ hZ (Nat.cast_nonneg _) ?_
  rw [Finset.mul_sum]
  refine Finset.sum_le_sum fun ids hids => ?_
  have hsp := (hc ids).1 hids
  have h1 := sum_by_token v.length (fun _ => 1) ids (likelihood_spells_lt hsp)
  have h2 := length_spells hsp (canonical_of_nodup hn hne hsp)
  rw [← Finset.mul_sum]
  simp only [mul_one, List.map_const', List.sum_replicate, nsmul_eq_mul] at h1
  rw [← h1, mul_comm]
  exact mul_le_mul_of_nonneg_right (by exact_mod_cast h2) (Real.exp_pos _).le

theorem corpus_uses_le {v : List (ScoredToken ℝ)} (hn : NoDuplicates v) (hne : ∀ t ∈ v, t.value ≠ []) (pieces : Str → List (List UInt8))
    (hpieces : ∀ s, (pieces s).flatten = enc s) (cuts : List UInt8 → Finset (List Nat)) (hc : ∀ bs, AllCuts v bs (cuts bs)) (samples : List Str) :
    ∑ i ∈ Finset.range v.length, (samples.map fun s => ((pieces s).map fun p => expectedUses v (cuts p) i).sum).sum ≤
      (((samples.map fun s => (enc s).length).sum : ℕ) : ℝ) := by
  induction samples with
  | nil => simp
  | cons s samples ih =>
    simp only [List.map_cons, List.sum_cons, Finset.sum_add_distrib, Nat.cast_add]
    have : ∀ ps : List (List UInt8), ∑ i ∈ Finset.range v.length, (ps.map fun p => expectedUses v (cuts p) i).sum ≤ (ps.flatten.length : ℝ) := by
      intro ps
      induction ps with
      | nil => simp
      | cons p ps ih =>
        simp only [List.map_cons, List.sum_cons, Finset.sum_add_distrib, List.flatten_cons, List.length_append, Nat.cast_add]
        have := uses_le hn hne (hc p)
        linarith
    have := this (pieces s)
    rw [hpieces s] at this
    linarith

theorem likelihood_uses_nonneg (v : List (ScoredToken ℝ)) (cuts : Finset (List Nat)) (i : Nat) : 0 ≤ expectedUses v cuts i :=
  div_nonneg (Finset.sum_nonneg fun _ _ => mul_nonneg (Real.exp_pos _).le (Nat.cast_nonneg _)) (Finset.sum_nonneg fun _ _ => (Real.exp_pos _).le)

theorem piece_ge {v w : List (ScoredToken ℝ)} {bs : List UInt8} {cuts : Finset (List Nat)} (hc : AllCuts v bs cuts) :
    ∑ i ∈ Finset.range v.length, expectedUses v cuts i * (scoreOf w i - scoreOf v i) ≤
      Real.log (∑ ids ∈ cuts, cutWeight w ids) - Real.log (∑ ids ∈ cuts, cutWeight v ids) := by
  refine le_trans (le_of_eq ?_) (log_sum_ge cuts (fun ids => (ids.map (scoreOf v)).sum) (fun ids => (ids.map (scoreOf w)).sum))
  unfold expectedUses
  simp only [div_mul_eq_mul_div]
  rw [← Finset.sum_div]
  congr 1
  have : ∀ i ∈ Finset.range v.length, (∑ ids ∈ cuts, cutWeight v ids * (ids.count i : ℝ)) * (scoreOf w i - scoreOf v i) =
      ∑ ids ∈ cuts, cutWeight v ids * ((ids.count i : ℝ) * (scoreOf w i - scoreOf v i)) := by
    intro i _
    rw [Finset.sum_mul]
    exact Finset.sum_congr rfl fun _ _ => by ring
  rw [Finset.sum_congr rfl this, Finset.sum_comm]
  refine Finset.sum_congr rfl fun ids hids => ?_
  rw [← Finset.mul_sum]
  have hlt := likelihood_spells_lt ((hc ids).1 hids)
  have h1 := sum_by_token v.length (fun i => scoreOf w i - scoreOf v i) ids hlt
  rw [← h1]
  unfold cutWeight
  rw [map_sub_sum]

/-- The sum over all pieces of all samples. -/
theorem corpus_ge {v w : List (ScoredToken ℝ)} (pieces : Str → List (List UInt8)) (cuts : List UInt8 → Finset (List Nat))
    (hc : ∀ bs, AllCuts v bs (cuts bs)) (samples : List Str) :
    ∑ i ∈ Finset.range v.length, (samples.map fun s => ((pieces s).map fun p => expectedUses v (cuts p) i).sum).sum * (scoreOf w i - scoreOf v i) ≤
      logLikelihood w pieces cuts samples - logLikelihood v pieces cuts samples := by
  unfold logLikelihood
  induction samples with
  | nil => simp
  | cons s samples ih =>
    simp only [List.map_cons, List.sum_cons, add_mul, Finset.sum_add_distrib]
    have : ∀ ps : List (List UInt8), ∑ i ∈ Finset.range v.length, (ps.map fun p => expectedUses v (cuts p) i).sum * (scoreOf w i - scoreOf v i) ≤
        (ps.map fun p => Real.log (∑ ids ∈ cuts p, cutWeight w ids)).sum - (ps.map fun p => Real.log (∑ ids ∈ cuts p, cutWeight v ids)).sum := by
      intro ps
      induction ps with
      | nil => simp
      | cons p ps ih =>
        simp only [List.map_cons, List.sum_cons, add_mul, Finset.sum_add_distrib]
        have := piece_ge (w := w) (hc p)
        linarith
    have := this (pieces s)
    linarith

/-- The heart: what re-estimation with the digamma function does to the expected score. -/
theorem reestimate_ge (n : Nat) (u f s s' : Nat → ℝ) (hu : ∀ i < n, 0 ≤ u i)
    (hf : ∀ i < n, Nearly (f i) (u i)) (hsub : ∑ i ∈ Finset.range n, Real.exp (s i) ≤ 1)
    (hs' : ∀ i < n, psi (max (f i) (1 / 2)) - psi (∑ j ∈ Finset.range n, max (f j) (1 / 2)) - 1 / 10000000000 ≤ s' i) :
    -(2 * (n : ℝ)) - (∑ i ∈ Finset.range n, u i) / 200000 ≤ ∑ i ∈ Finset.range n, u i * (s' i - s i) := by
  generalize hU : ∑ i ∈ Finset.range n, u i = U
  generalize hG : ∑ j ∈ Finset.range n, max (f j) (1 / 2) = G at hs'
  have hU0 : 0 ≤ U := by rw [← hU]; exact Finset.sum_nonneg fun i hi => hu i (Finset.mem_range.1 hi)
  have hfn : ∀ i < n, 0 ≤ f i := fun i hi => by
    have := (hf i hi).1
    have := hu i hi
    nlinarith
  have hG1 : G ≤ U * (1 + 1 / 1000000) + n / 2 := by
    rw [← hG, ← hU, Finset.sum_mul]
    have : ∀ i ∈ Finset.range n, max (f i) (1 / 2) ≤ u i * (1 + 1 / 1000000) + 1 / 2 := by
      intro i hi
      have h1 := (hf i (Finset.mem_range.1 hi)).2
      have h2 := hfn i (Finset.mem_range.1 hi)
      rw [max_le_iff]
      constructor <;> linarith
    refine (Finset.sum_le_sum this).trans (le_of_eq ?_)
    rw [Finset.sum_add_distrib, Finset.sum_const, Finset.card_range]
    simp; ring
  rcases eq_or_lt_of_le hU0 with h0 | hUpos
  · have hz : ∀ i ∈ Finset.range n, u i = 0 := by
      rw [← h0] at hU
      exact (Finset.sum_eq_zero_iff_of_nonneg fun i hi => hu i (Finset.mem_range.1 hi)).1 hU
    rw [Finset.sum_congr rfl fun i hi => by rw [hz i hi, zero_mul], ← h0]
    simp
  · have hGU : U * (1 - 1 / 1000000) ≤ G := by
      rw [← hG, ← hU, Finset.sum_mul]
      exact Finset.sum_le_sum fun i hi => ((hf i (Finset.mem_range.1 hi)).1).trans (le_max_left _ _)
    have hGpos : 0 < G := lt_of_lt_of_le (by nlinarith) hGU
    have hlogG : U * Real.log G ≤ U * Real.log U + (G - U) := by
      have h1 := Real.log_le_sub_one_of_pos (div_pos hGpos hUpos)
      rw [Real.log_div hGpos.ne' hUpos.ne'] at h1
      have h2 : U * (Real.log G - Real.log U) ≤ U * (G / U - 1) := mul_le_mul_of_nonneg_left h1 hU0
      have h3 : U * (G / U - 1) = G - U := by field_simp
      linarith
    have key : ∀ i ∈ Finset.range n, u i - U * Real.exp (s i) - 3 / 1000000 * u i - 5 / 4 - u i * (Real.log G - Real.log U) ≤ u i * (s' i - s i) := by
      intro i hi
      have hi := Finset.mem_range.1 hi
      rcases eq_or_lt_of_le (hu i hi) with h | h
      · rw [← h]
        have := Real.exp_pos (s i)
        nlinarith
      · have hfpos : 0 < f i := lt_of_lt_of_le (by nlinarith) (hf i hi).1
        have hgpos : 0 < max (f i) (1 / 2) := lt_max_of_lt_left hfpos
        have h1 := hs' i hi
        have h2 := log_le_psi hgpos
        have h3 := psi_le_log hGpos
        have h4 : Real.log (u i) - 2 / 1000000 ≤ Real.log (max (f i) (1 / 2)) := by
          have h5 : u i * (1 - 1 / 1000000) ≤ max (f i) (1 / 2) := (hf i hi).1.trans (le_max_left _ _)
          have h6 := Real.log_le_log (by nlinarith) h5
          rw [Real.log_mul h.ne' (by norm_num)] at h6
          have h7 : -(2 / 1000000) ≤ Real.log (1 - 1 / 1000000) := by
            have h8 := Real.one_sub_inv_le_log_of_pos (show (0 : ℝ) < 1 - 1 / 1000000 by norm_num)
            have : -(2 / 1000000 : ℝ) ≤ 1 - (1 - 1 / 1000000)⁻¹ := by norm_num
            linarith
          linarith
        have h9 : u i * (1 / max (f i) (1 / 2)) ≤ 5 / 4 := by
          rw [mul_one_div, div_le_iff₀ hgpos]
          have : u i * (1 - 1 / 1000000) ≤ max (f i) (1 / 2) := (hf i hi).1.trans (le_max_left _ _)
          nlinarith
        -- Gibbs
        have h10 : u i - U * Real.exp (s i) ≤ u i * (Real.log (u i) - Real.log U - s i) := by
          have hx : 0 < u i / (U * Real.exp (s i)) := by have := Real.exp_pos (s i); positivity
          have h11 := Real.one_sub_inv_le_log_of_pos hx
          rw [Real.log_div h.ne' (by have := Real.exp_pos (s i); positivity), Real.log_mul hUpos.ne' (Real.exp_pos _).ne', Real.log_exp, inv_div] at h11
          have h12 := mul_le_mul_of_nonneg_left h11 h.le
          have h13 : u i * (1 - U * Real.exp (s i) / u i) = u i - U * Real.exp (s i) := by field_simp
          rw [h13] at h12
          linarith
        have h14 : u i * (Real.log (u i) - 2 / 1000000 - Real.log G - 1 / 10000000000 - s i) - 5 / 4 ≤ u i * (s' i - s i) := by
          have h15 : Real.log (u i) - 2 / 1000000 - 1 / max (f i) (1 / 2) - Real.log G - 1 / 10000000000 - s i ≤ s' i - s i := by linarith
          have := mul_le_mul_of_nonneg_left h15 h.le
          nlinarith
        nlinarith
    refine le_trans ?_ (Finset.sum_le_sum key)
    simp only [Finset.sum_sub_distrib, ← Finset.mul_sum, ← Finset.sum_mul, hU, Finset.sum_const, Finset.card_range, nsmul_eq_mul]
    have h16 : U * ∑ i ∈ Finset.range n, Real.exp (s i) ≤ U * 1 := mul_le_mul_of_nonneg_left hsub hU0
    nlinarith

theorem list_range_sum (l : List ℝ) : l.sum = ∑ i ∈ Finset.range l.length, l.getD i 0 := by
  induction l with
  | nil => simp
  | cons x l ih => rw [List.length_cons, Finset.sum_range_succ', List.sum_cons, ih]; simp; ring

theorem keptBy_all {vocab : List (ScoredToken ℝ)} {freqs : List ℝ} {w : List (ScoredToken ℝ)} (hl : freqs.length = vocab.length)
    (h : Reestimated vocab freqs w) (hw : w.length = vocab.length) : keptBy vocab freqs = vocab.zip freqs := by
  have h1 := h.length_eq
  rw [hw] at h1
  unfold keptBy at h1 ⊢
  rw [List.filter_eq_self]
  have : (vocab.zip freqs).length = vocab.length := by rw [List.length_zip, hl, Nat.min_self]
  rw [← this] at h1
  exact List.length_filter_eq_length_iff.1 h1

/-- C113 (partial: the likelihood can fall, but only by a bounded amount). With real arithmetic and no dropout, an EM iteration that drops no
token lowers the log-likelihood of the corpus by at most twice the number of tokens of the vocabulary plus one part in 200000 of the number
of bytes of the corpus. -/
theorem C113_em_partial (c : Pruner ℝ) (hd : c.dropout ≤ 0) (samples : List Str) (vocab : List (ScoredToken ℝ)) (ht : Trainable vocab samples)
    (hsize : vocab.length ≤ 4294967296) (pieces : Str → List (List UInt8)) (hpieces : ∀ s, CutEvery 81920 (enc s) (pieces s))
    (cuts : List UInt8 → Finset (List Nat)) (hcuts : ∀ bs, AllCuts vocab bs (cuts bs)) (m' : Model ℝ)
    (h : Pruner.EMStep c samples (Model.from_ vocab) m') (hall : m'.vocab.length = vocab.length) :
    (∀ bs, AllCuts m'.vocab bs (cuts bs)) ∧
    logLikelihood vocab pieces cuts samples - 2 * vocab.length - ((samples.map fun s => (enc s).length).sum : ℕ) / 200000 ≤
      logLikelihood m'.vocab pieces cuts samples := by
  obtain ⟨freqs, w, h1, rfl, h2⟩ := C80_em_step c samples vocab m' h
  rw [Model.from_vocab] at hall ⊢
  obtain ⟨hl, h3⟩ := C79_expected_uses vocab samples ht hsize pieces hpieces cuts hcuts c.dropout hd freqs h1
  have hk := keptBy_all hl h2 hall
  unfold Reestimated at h2
  rw [hk] at h2
  have hz : (vocab.zip freqs).length = vocab.length := by rw [List.length_zip, hl, Nat.min_self]
  have hat : ∀ i (hi : i < vocab.length), (w[i]'(by omega)).value = vocab[i].value ∧
      psi (max (freqs[i]'(by omega)) (1 / 2)) - psi ((vocab.zip freqs).map fun p => max p.2 (1 / 2)).sum - 1 / 10000000000 ≤ (w[i]'(by omega)).score := by
    intro i hi
    have := List.Forall₂.get h2 (by omega : i < (vocab.zip freqs).length) (by omega : i < w.length)
    simp only [List.get_eq_getElem, List.getElem_zip] at this
    obtain ⟨⟨e, _⟩, hs⟩ := this
    exact ⟨e, by linarith [(abs_le.1 hs).1]⟩
  constructor
  · intro bs ids
    have hv : vocab.map (·.value) = w.map (·.value) := by
      refine List.ext_getElem (by simpa using hall.symm) fun i g1 g2 => ?_
      simp only [List.length_map] at g1
      simpa using ((hat i g1).1).symm
    rw [hcuts bs ids]
    exact ⟨relative_spells hv, relative_spells hv.symm⟩
  · have hG : ((vocab.zip freqs).map fun p => max p.2 (1 / 2)).sum = ∑ j ∈ Finset.range vocab.length, max (freqs.getD j 0) (1 / 2) := by
      rw [list_range_sum, List.length_map, hz]
      refine Finset.sum_congr rfl fun j hj => ?_
      have hj := Finset.mem_range.1 hj
      rw [List.getD_eq_getElem _ _ (by simp; omega), List.getD_eq_getElem _ _ (by omega)]
      simp
    have main := reestimate_ge vocab.length (fun i => (samples.map fun s => ((pieces s).map fun p => expectedUses vocab (cuts p) i).sum).sum)
      (fun i => freqs.getD i 0) (scoreOf vocab) (scoreOf w) ?_ ?_ ?_ ?_
    · have g1 := corpus_ge (w := w) pieces cuts hcuts samples
      have g2 := corpus_uses_le ht.nodup ht.nonempty pieces (fun s => (hpieces s).1) cuts hcuts samples
      have g3 := div_le_div_of_nonneg_right g2 (by norm_num : (0 : ℝ) ≤ 200000)
      linarith
    · intro i _
      refine List.sum_nonneg fun x hx => ?_
      obtain ⟨s, _, rfl⟩ := List.mem_map.1 hx
      refine List.sum_nonneg fun x hx => ?_
      obtain ⟨p, _, rfl⟩ := List.mem_map.1 hx
      exact likelihood_uses_nonneg _ _ _
    · intro i hi
      refine h3 i _ ?_
      rw [List.getD_eq_getElem _ _ (by omega), List.getElem?_eq_getElem]
    · refine le_trans (le_of_eq ?_) ht.probability
      rw [list_range_sum, List.length_map]
      refine Finset.sum_congr rfl fun j hj => ?_
      have hj := Finset.mem_range.1 hj
      rw [List.getD_eq_getElem _ _ (by simpa using hj), List.getElem_map]
      simp [scoreOf, hj]
    · intro i hi
      have := (hat i hi).2
      rw [hG] at this
      have e : scoreOf w i = (w[i]'(by omega)).score := by simp [scoreOf, show i < w.length by omega]
      rw [e, List.getD_eq_getElem _ _ (by omega)]
      exact this

/-! ### The likelihood can fall -/

/-- Two protected tokens of probability 1/2 each. -/
noncomputable def fairVocab : List (ScoredToken ℝ) := [⟨[97], Real.log (1 / 2), true⟩, ⟨[98], Real.log (1 / 2), true⟩]

theorem fair_trainable : Trainable fairVocab [['a', 'b']] := by
  have he : enc ['a', 'b'] = [97, 98] := by decide
  have hk : ∀ b : UInt8, b = 97 ∨ b = 98 → ∃ t ∈ fairVocab, t.value = [b] ∧ t.keep = true := by
    rintro b (rfl | rfl)
    · exact ⟨_, List.mem_cons_self .., rfl, rfl⟩
    · exact ⟨_, List.mem_cons_of_mem _ (List.mem_cons_self ..), rfl, rfl⟩
  refine ⟨by simp [NoDuplicates, fairVocab], by simp [fairVocab], by simp [fairVocab], ?_, ?_, ?_⟩
  · unfold SubProbability
    simp only [fairVocab, List.map_cons, List.map_nil, List.sum_cons, List.sum_nil, Real.exp_log (by norm_num : (0 : ℝ) < 1 / 2)]
    norm_num
  · intro t ht b hb
    apply hk
    simp only [fairVocab, List.mem_cons, List.not_mem_nil, or_false] at ht
    rcases ht with rfl | rfl
    · simp only [List.mem_singleton] at hb; exact Or.inl hb
    · simp only [List.mem_singleton] at hb; exact Or.inr hb
  · intro s hs b hb
    rw [List.mem_singleton] at hs
    subst hs
    rw [he] at hb
    exact hk b (by simpa using hb)

theorem fair_spells {ids : List Nat} : Spells fairVocab ids [97, 98] ↔ ids = [0, 1] := by
  constructor
  · intro h
    have hget : ∀ {i : Nat} {t : ScoredToken ℝ}, fairVocab[i]? = some t → (i = 0 ∧ t.value = [97]) ∨ (i = 1 ∧ t.value = [98]) := by
      intro i t h
      match i, h with
      | 0, h => simp [fairVocab] at h; simp [← h]
      | 1, h => simp [fairVocab] at h; simp [← h]
      | _ + 2, h => simp [fairVocab] at h
    rcases ids with _ | ⟨i, _ | ⟨j, _ | ⟨k, ids⟩⟩⟩
    · rw [spells_nil] at h; simp at h
    · obtain ⟨t, r, ht, hr, e⟩ := spells_cons.1 h
      rw [spells_nil.1 hr] at e
      rcases hget ht with ⟨rfl, e'⟩ | ⟨rfl, e'⟩ <;> rw [e'] at e <;> simp at e
    · obtain ⟨t, r, ht, hr, e⟩ := spells_cons.1 h
      obtain ⟨u, q, hu, hq, rfl⟩ := spells_cons.1 hr
      rcases hget ht with ⟨rfl, e'⟩ | ⟨rfl, e'⟩ <;> rw [e'] at e <;> rcases hget hu with ⟨rfl, e'⟩ | ⟨rfl, e'⟩ <;> rw [e'] at e <;>
        simp at e
    · obtain ⟨t, r, ht, hr, e⟩ := spells_cons.1 h
      obtain ⟨u, q, hu, hq, rfl⟩ := spells_cons.1 hr
      obtain ⟨x, y, hx, hy, rfl⟩ := spells_cons.1 hq
      rcases hget ht with ⟨_, a⟩ | ⟨_, a⟩ <;> rcases hget hu with ⟨_, b⟩ | ⟨_, b⟩ <;> rcases hget hx with ⟨_, c⟩ | ⟨_, c⟩ <;>
        rw [a, b, c] at e <;> simp at e
  · rintro rfl
    exact ⟨fairVocab, rfl, rfl⟩

theorem fair_chunks : Parallel.chunks 81920 [97, 98] = [([97, 98] : List UInt8)] := by
  rw [Parallel.chunks, dif_neg (by simp), List.take_of_length_le (by simp), List.drop_of_length_le (by simp),
    Parallel.chunks, dif_pos (by simp)]

/-- Both tokens are expected once, so both get a score of nearly ψ(1) - ψ(2) = -1. -/
theorem fair_psi {f g : ℝ} (hf : Nearly f 1) (hg : Nearly g 1) : psi (max f (1 / 2)) - psi (max f (1 / 2) + max g (1 / 2)) ≤ -(9 / 10) := by
  obtain ⟨f1, f2⟩ := hf
  obtain ⟨g1, g2⟩ := hg
  rw [max_eq_left (by linarith), max_eq_left (by linarith)]
  have h1 := psi_mono (show 0 < f by linarith) (show f ≤ 1 + 1 / 1000000 by linarith)
  have h3 := psi_lip (show (1 : ℝ) / 4 ≤ 1 by norm_num) (show (1 : ℝ) ≤ 1 + 1 / 1000000 by norm_num)
  have h4 := psi_mono (show (0 : ℝ) < 99 / 100 + 1 by norm_num) (show 99 / 100 + 1 ≤ f + g by linarith)
  rw [psi_add_one (by norm_num)] at h4
  have h5 := psi_lip (show (1 : ℝ) / 4 ≤ 99 / 100 by norm_num) (show (99 : ℝ) / 100 ≤ 1 by norm_num)
  norm_num at h3 h4 h5 ⊢
  linarith

/-- The full statement fails: on the sample `"ab"` an EM iteration for two tokens of probability 1/2 lowers the likelihood. -/
theorem C113_false : ∃ (c : Pruner ℝ) (samples : List Str) (vocab : List (ScoredToken ℝ)) (pieces : Str → List (List UInt8))
    (cuts : List UInt8 → Finset (List Nat)),
    c.dropout = 0 ∧ Trainable vocab samples ∧ (∀ s, CutEvery 81920 (enc s) (pieces s)) ∧ (∀ bs, AllCuts vocab bs (cuts bs)) ∧
    (∃ m', Pruner.EMStep c samples (Model.from_ vocab) m') ∧
    ∀ m', Pruner.EMStep c samples (Model.from_ vocab) m' → m'.vocab.length = vocab.length ∧
      logLikelihood m'.vocab pieces cuts samples < logLikelihood vocab pieces cuts samples := by
  classical
  have he : enc ['a', 'b'] = [97, 98] := by decide
  have hfin := cuts_finite fair_trainable.nonempty
  have hcuts : ∀ bs, AllCuts fairVocab bs ((hfin bs).toFinset) := by
    intro bs ids
    simp only [Set.Finite.mem_toFinset, Set.mem_ofPred_eq]
  have hc : (hfin [97, 98]).toFinset = {[0, 1]} := by
    ext ids
    rw [hcuts, fair_spells, Finset.mem_singleton]
  refine ⟨realPruner, [['a', 'b']], fairVocab, fun s => Parallel.chunks 81920 (enc s), fun bs => (hfin bs).toFinset, rfl, fair_trainable,
    fun s => chunks_cutEvery (by norm_num) _, hcuts, ?_, ?_⟩
  · obtain ⟨⟨m', h⟩, _⟩ := C78_em realPruner [['a', 'b']] fairVocab fair_trainable 1
    cases h with
    | succ h1 h2 => exact ⟨_, h1⟩
  · intro m' h
    obtain ⟨freqs, w, h1, rfl, h2⟩ := C80_em_step _ _ fairVocab m' h
    obtain ⟨hl, h3⟩ := C79_expected_uses fairVocab [['a', 'b']] fair_trainable (by simp [fairVocab])
      (fun s => Parallel.chunks 81920 (enc s)) (fun s => chunks_cutEvery (by norm_num) _) _ hcuts 0 le_rfl freqs h1
    rw [Model.from_vocab]
    have hu : ∀ i < 2, expectedUses fairVocab ((hfin [97, 98]).toFinset) i = 1 := by
      intro i hi
      unfold expectedUses
      rw [hc, Finset.sum_singleton, Finset.sum_singleton]
      have : ([0, 1] : List Nat).count i = 1 := by interval_cases i <;> rfl
      rw [this]
      have := Real.exp_pos (([0, 1].map (scoreOf fairVocab)).sum)
      unfold cutWeight
      field_simp
      simp
    obtain ⟨f, g, rfl⟩ : ∃ f g, freqs = [f, g] := by
      rcases freqs with _ | ⟨f, _ | ⟨g, _ | ⟨x, t⟩⟩⟩ <;> simp [fairVocab] at hl
      exact ⟨f, g, rfl⟩
    have hf := h3 0 f rfl
    have hg := h3 1 g rfl
    simp only [List.map_cons, List.map_nil, List.sum_cons, List.sum_nil, he, fair_chunks, add_zero] at hf hg
    rw [hu 0 (by norm_num)] at hf
    rw [hu 1 (by norm_num)] at hg
    unfold Reestimated at h2
    have hk : keptBy fairVocab [f, g] = fairVocab.zip [f, g] := by simp [keptBy, fairVocab]
    rw [hk] at h2
    simp only [fairVocab, List.zip_cons_cons, List.zip_nil_right, List.map_cons, List.map_nil, List.sum_cons, List.sum_nil, add_zero] at h2
    rcases h2 with _ | ⟨⟨_, ha⟩, _ | ⟨⟨_, hb⟩, h2⟩⟩
    cases h2
    rename_i x y
    refine ⟨rfl, ?_⟩
    simp only [logLikelihood, List.map_cons, List.map_nil, List.sum_cons, List.sum_nil, he, fair_chunks, add_zero, hc, Finset.sum_singleton]
    unfold cutWeight
    rw [Real.log_exp, Real.log_exp]
    have p1 := fair_psi hf hg
    have p2 := fair_psi hg hf
    rw [add_comm (max g _)] at p2
    have q1 := (abs_le.1 ha).2
    have q2 := (abs_le.1 hb).2
    have hln : -(7 / 10) < Real.log (1 / 2) := by
      rw [one_div, Real.log_inv]
      have := Real.log_two_lt_d9
      linarith
    simp only [List.map_cons, List.map_nil, List.sum_cons, List.sum_nil, scoreOf, fairVocab]
    simp
    rw [one_div, Real.log_inv] at hln
    linarith

/-- The hypotheses of C113_em_partial are met by the same iteration: the likelihood does not fall by more than 5. -/
example : ∃ (samples : List Str) (pieces : Str → List (List UInt8)) (cuts : List UInt8 → Finset (List Nat)) (m' : Model ℝ),
    Pruner.EMStep realPruner samples (Model.from_ fairVocab) m' ∧
    logLikelihood fairVocab pieces cuts samples - 5 ≤ logLikelihood m'.vocab pieces cuts samples := by
  classical
  have he : enc ['a', 'b'] = [97, 98] := by decide
  have hfin := cuts_finite fair_trainable.nonempty
  have hcuts : ∀ bs, AllCuts fairVocab bs ((hfin bs).toFinset) := by
    intro bs ids
    simp only [Set.Finite.mem_toFinset, Set.mem_ofPred_eq]
  obtain ⟨⟨m', h⟩, _⟩ := C78_em realPruner [['a', 'b']] fairVocab fair_trainable 1
  cases h with
  | @succ n m m₁ m₂ h1 h2 =>
    refine ⟨[['a', 'b']], fun s => Parallel.chunks 81920 (enc s), fun bs => (hfin bs).toFinset, _, h1, ?_⟩
    have hlen : m₁.vocab.length = fairVocab.length := by
      obtain ⟨freqs, w, g1, rfl, g2⟩ := C80_em_step _ _ fairVocab _ h1
      obtain ⟨hl, _⟩ := C79_expected_uses fairVocab [['a', 'b']] fair_trainable (by simp [fairVocab])
        (fun s => Parallel.chunks 81920 (enc s)) (fun s => chunks_cutEvery (by norm_num) _) _ hcuts 0 le_rfl freqs g1
      rw [Model.from_vocab, ← g2.length_eq]
      rcases freqs with _ | ⟨f, _ | ⟨g, _ | ⟨x, t⟩⟩⟩ <;> simp [fairVocab] at hl
      simp [keptBy, fairVocab]
    have := (C113_em_partial realPruner le_rfl _ fairVocab fair_trainable (by simp [fairVocab]) _ (fun s => chunks_cutEvery (by norm_num) _)
      _ hcuts _ h1 hlen).2
    simp only [List.map_cons, List.map_nil, List.sum_cons, List.sum_nil, he, fairVocab, List.length_cons, List.length_nil] at this ⊢
    norm_num at this ⊢
    linarith

end Tokengeex

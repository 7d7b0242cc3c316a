import Verif.Props.MarginalF64
import Verif.Proofs.SpreadF64
import Verif.Proofs.EM4
import Verif.Proofs.ParallelFold
import Verif.Spec.TrainF64
/-
The E-step with doubles.
-/
namespace Tokengeex
open Spec

/-- A token cannot be expected more often than the sentence has bytes. -/
theorem expectedCount_le {sentence : List UInt8} {es : List (Entry ℝ)} {vocab : List (ScoredToken ℝ)} (hT : ∀ e ∈ es, TokenAt vocab sentence e)
    (hes : Inside sentence.length es) (hgaps : NoGaps sentence.length es) {segs : Finset (List Nat)}
    (hsegs : AllSegmentations sentence.length es segs) {i : Nat} (hi : i < vocab.length) :
    expectedCount es segs i ≤ sentence.length := by
  have h := C36_lengths sentence es hes hgaps segs hsegs vocab.length
    (fun e he => by
      obtain ⟨t, ht, _, _⟩ := tokenAt_value (hT e he)
      exact (List.getElem?_eq_some_iff.1 ht).1)
    (fun i => max 1 ((vocab[i]?.map fun t => t.value.length).getD 1))
    (fun e he => by
      obtain ⟨t, ht, _, _⟩ := tokenAt_value (hT e he)
      have hl := tokenAt_length (hT e he) ht
      have h0 := (hes e he).1
      rw [ht, Option.map_some, Option.getD_some, hl]
      omega)
  rw [← h]
  have hnn : ∀ j ∈ Finset.range vocab.length,
      0 ≤ ((max 1 ((vocab[j]?.map fun t => t.value.length).getD 1) : Nat) : ℝ) * expectedCount es segs j :=
    fun j _ => mul_nonneg (Nat.cast_nonneg _) (expectedCount_nonneg segs j)
  refine le_trans ?_ (Finset.single_le_sum hnn (Finset.mem_range.2 hi))
  refine le_mul_of_one_le_left (expectedCount_nonneg segs i) ?_
  exact_mod_cast le_max_left 1 _

namespace Pruner
variable [Elementary]

omit [Elementary] in
/-- The error of one `log_sum_exp` on a piece of a sample. -/
theorem piece_delta {n len : Nat} (hn : n ≤ 81920) (hlen : len ≤ n * 256) {ε η : ℝ} (hε : ε ≤ (1 / 2) ^ 40) (hη : η ≤ (1 / 2) ^ 40)
    (hε0 : 0 ≤ ε) (hη0 : 0 ≤ η) :
    ((len : ℝ) + 2) * (ε + 2 * η + (n * (64 + Real.log (len + 2)) + 320) / 2 ^ 53) ≤ 1 / 50 := by
  have hn' : (n : ℝ) ≤ 81920 := by exact_mod_cast hn
  have hn0 : (0 : ℝ) ≤ n := Nat.cast_nonneg _
  have hl' : (len : ℝ) ≤ 20971520 := by exact_mod_cast (by omega : len ≤ 20971520)
  have hl0 : (0 : ℝ) ≤ len := Nat.cast_nonneg _
  have hlog : Real.log (len + 2) ≤ 25 := by
    have h1 : Real.log (len + 2) ≤ Real.log (2 ^ 25) := Real.log_le_log (by linarith) (by norm_num; linarith)
    have h2 : Real.log 2 ≤ 1 := by
      have := Real.log_le_sub_one_of_pos (show (0 : ℝ) < 2 by norm_num)
      linarith
    rw [Real.log_pow] at h1
    push_cast at h1
    linarith
  have hlog0 : 0 ≤ Real.log ((len : ℝ) + 2) := Real.log_nonneg (by linarith)
  have hm : (n : ℝ) * (64 + Real.log (len + 2)) ≤ 81920 * 89 := mul_le_mul hn' (by linarith) (by linarith) (by norm_num)
  have hm0 : 0 ≤ (n : ℝ) * (64 + Real.log (len + 2)) := mul_nonneg hn0 (by linarith)
  have hd : ε + 2 * η + (n * (64 + Real.log (len + 2)) + 320) / 2 ^ 53 ≤ 3 * (1 / 2) ^ 40 + (81920 * 89 + 320) / 2 ^ 53 := by
    have : (n * (64 + Real.log (len + 2)) + 320) / 2 ^ 53 ≤ (81920 * 89 + 320) / 2 ^ 53 := by
      apply div_le_div_of_nonneg_right _ (by positivity)
      linarith
    linarith
  have hd0 : 0 ≤ ε + 2 * η + (n * (64 + Real.log (len + 2)) + 320) / 2 ^ 53 := by positivity
  refine (mul_le_mul (by linarith : (len : ℝ) + 2 ≤ 20971522) hd hd0 (by norm_num)).trans ?_
  norm_num

/-- What a piece of a sample does to the state of a worker; it panics only if the logarithm of the probability is not a normal
number. -/
theorem eSnippet_doubles {ε η : ℝ} (hln : LnWithin ε) (hexp : ExpWithin η) (hε : ε ≤ (1 / 2) ^ 40) (hη : η ≤ (1 / 2) ^ 40)
    {vocab : List (ScoredToken F64)} (hsc : ∀ t ∈ vocab, Spec.Finite t.score ∧ |real t.score| ≤ 64) (hlen : ∀ t ∈ vocab, t.value.length ≤ 256)
    (dropout : F64) (rnd : Nat → F64) (st : EState F64) (hist : History st.pool st.lattice) (hl : st.expected.length = vocab.length)
    {C : ℝ} (hC : C ≤ 2 ^ 44) (hex : ∀ x ∈ st.expected, Spec.Finite x ∧ |real x| ≤ C) (p : List UInt8) (hne : p ≠ [])
    (hmax : p.length ≤ maxSampleLength) (hb : BytesCovered vocab p) :
    ∃ st' : EState F64, ∃ z : F64, eSnippet (Model.from_ vocab) dropout rnd st p = (if TrainOps.isNormal z then .ok st' else .error .panic) ∧
      History st'.pool st'.lattice ∧ st'.expected.length = vocab.length ∧ (∀ x ∈ st'.expected, Spec.Finite x ∧ |real x| ≤ C + 4 * p.length) ∧
      (Spread vocab → TrainOps.isNormal z = true) := by
  obtain ⟨pool', hfrom, _⟩ := from_clean st.lattice p (history_clean hist)
  obtain ⟨es, k, hpop, hT, hd, hone, _⟩ := C33_populate vocab p dropout (fun i => rnd (st.draws + i))
  obtain ⟨hi, hg, hde, hid⟩ := noGaps_of_bytes hb hT hone
  have hi' := inside_real hi
  obtain ⟨segs, hsegs⟩ := segmentations_exist p.length (realEntries es) hi'
  have hT' := tokenAt_real hT
  have hd' := pairwise_real hd
  have hn : p.length ≤ 81920 := hmax
  have hn1 : 1 ≤ p.length := List.length_pos_iff.2 hne
  have htok : ∀ e ∈ es, ∃ t ∈ vocab, t.value.length = e.len ∧ t.score = e.score := by
    intro e he
    obtain ⟨h1, h2, ⟨⟨t, ht, hv⟩, _⟩, u, hu, hs⟩ := hT e he
    rw [ht] at hu
    cases hu
    refine ⟨t, List.mem_of_getElem? ht, ?_, hs⟩
    rw [hv, List.length_take, List.length_drop]
    omega
  have hes : es.length ≤ p.length * 256 := by
    apply entries_le hd
    intro e he
    obtain ⟨h1, h2, _⟩ := hT e he
    obtain ⟨t, ht, h3, _⟩ := htok e he
    have := hlen t ht
    exact ⟨by omega, h1, by omega⟩
  have hε0 := F64.lnWithin_nonneg hln
  have hη0 := F64.expWithin_nonneg hexp
  have hsmall := piece_delta hn hes hε hη hε0 hη0
  have h8 : ((1 : ℝ) / 2) ^ 40 ≤ 1 / 8 := by norm_num
  obtain ⟨ex', z, hm, hzf, hz, hl', hinc⟩ := C36_marginal_doubles ε η hln hexp (by linarith) (by linarith) st.pool pool' st.lattice _ _ hist p es
    hfrom hi (insertAll p es hi) hg hde 64 (by norm_num)
    (fun e he => by
      obtain ⟨t, ht, _, h4⟩ := htok e he
      rw [← h4]
      exact hsc t ht) segs hsegs st.expected (by rw [hl]; exact hid) C (hC.trans (by norm_num)) hex (es.length + 2) _ rfl rfl
    (hsmall.trans (by norm_num))
  set d := ((es.length : ℝ) + 2) * (ε + 2 * η + (p.length * (64 + Real.log (es.length + 2)) + 320) / 2 ^ 53) with hdd
  have hlen0 : (0 : ℝ) ≤ es.length := Nat.cast_nonneg _
  have hd0 : 0 ≤ d := le_trans (abs_nonneg _) hz
  have hesR : (es.length : ℝ) ≤ p.length * 256 := by exact_mod_cast hes
  have hpR : (p.length : ℝ) ≤ 81920 := by exact_mod_cast hn
  have hp1 : (1 : ℝ) ≤ p.length := by exact_mod_cast hn1
  refine ⟨⟨latticeOf p es, pool', st.draws + k, ex'⟩, z, ?_, ?_, by simpa [hl] using hl', ?_, ?_⟩
  · unfold eSnippet
    rw [hfrom]
    simp only [res_bind_ok]
    rw [hpop]
    simp only [res_bind_ok]
    rw [hm]
    simp only [res_bind_ok]
    by_cases h : TrainOps.isNormal z = true
    · rw [h]; rfl
    · rw [Bool.eq_false_iff.2 h]; rfl
  · exact (History.reinit p hist hfrom).other _
  · intro x hx
    obtain ⟨i, hix⟩ := List.mem_iff_getElem?.1 hx
    have hil : i < st.expected.length := by
      have : i < ex'.length := (List.getElem?_eq_some_iff.1 hix).1
      omega
    obtain ⟨new, h1, h2, h3⟩ := hinc i _ (List.getElem?_eq_getElem hil)
    rw [h1] at hix
    cases hix
    refine ⟨h2, ?_⟩
    obtain ⟨_, h4⟩ := hex _ (List.getElem_mem hil)
    have h5 := expectedCount_le hT' hi' (noGaps_real hg) hsegs (i := i) (by
      unfold realVocabOf
      rw [List.length_map]
      omega)
    have h6 := expectedCount_nonneg (es := realEntries es) segs i
    generalize expectedCount (realEntries es) segs i = c at *
    have h7 : 12 * d * c ≤ 12 * (1 / 50) * p.length := by
      refine mul_le_mul (by linarith) h5 h6 (by norm_num)
    have h8 : ((es.length : ℝ) + 2) * (η + (C + 2 * (es.length + 2)) / 2 ^ 53) ≤ (258 * p.length) * (1 / 128 - 1 / 10000) := by
      have hC0 : 0 ≤ C := le_trans (abs_nonneg _) h4
      refine mul_le_mul (by linarith) ?_ (by positivity) (by linarith)
      have : (C + 2 * (es.length + 2)) / 2 ^ 53 ≤ (2 ^ 44 + 2 * (81920 * 256 + 2)) / 2 ^ 53 := by
        apply div_le_div_of_nonneg_right _ (by positivity)
        linarith
      have : ((2 : ℝ) ^ 44 + 2 * (81920 * 256 + 2)) / 2 ^ 53 ≤ 1 / 500 := by norm_num
      have : ((1 : ℝ) / 2) ^ 40 ≤ 1 / 1000 := by norm_num
      linarith
    obtain ⟨a1, a2⟩ := abs_le.1 h3
    obtain ⟨a3, a4⟩ := abs_le.1 h4
    rw [abs_le]
    constructor <;> nlinarith
  · intro hsp
    have hle : total hi' 0 p.length ≤ 9 / 10 := by
      refine total_le_spread hT' hd' hi' (by norm_num) ?_ p.length (by omega) (le_refl _)
      intro b
      have := hsp b
      unfold realVocabOf
      rw [List.filter_map, List.map_map]
      exact this
    have hlog : Real.log (partition (realEntries es) segs) ≤ -(1 / 10) := by
      rw [(partition_eq hi' hsegs).2]
      have h0 := total_pos hi' (noGaps_real hg)
      have := Real.log_le_sub_one_of_pos h0
      linarith
    obtain ⟨a1, a2⟩ := abs_le.1 hz
    have : real z ≤ -(1 / 20) := by linarith
    refine F64.isNormal_of_far hzf ?_
    rw [abs_of_neg (by linarith)]
    norm_num
    linarith

/-- The states a worker can be in after `B` bytes. -/
def Bounded (vocab : List (ScoredToken F64)) (B : Nat) (st : EState F64) : Prop :=
  History st.pool st.lattice ∧ st.expected.length = vocab.length ∧ ∀ x ∈ st.expected, Spec.Finite x ∧ |real x| ≤ 4 * B

theorem ePieces_doubles {ε η : ℝ} (hln : LnWithin ε) (hexp : ExpWithin η) (hε : ε ≤ (1 / 2) ^ 40) (hη : η ≤ (1 / 2) ^ 40)
    {vocab : List (ScoredToken F64)} (hsc : ∀ t ∈ vocab, Spec.Finite t.score ∧ |real t.score| ≤ 64) (hlen : ∀ t ∈ vocab, t.value.length ≤ 256)
    (dropout : F64) (rnd : Nat → F64) : ∀ (ps : List (List UInt8)) (B : Nat) (st : EState F64), Bounded vocab B st →
    B + ps.flatten.length ≤ 2 ^ 40 → (∀ p ∈ ps, p ≠ [] ∧ p.length ≤ maxSampleLength ∧ BytesCovered vocab p) →
    (Spread vocab → ∃ st', ps.foldlM (eSnippet (Model.from_ vocab) dropout rnd) st = .ok st') ∧
    ∀ st', ps.foldlM (eSnippet (Model.from_ vocab) dropout rnd) st = .ok st' → Bounded vocab (B + ps.flatten.length) st' := by
  intro ps
  induction ps with
  | nil =>
    intro B st h _ _
    refine ⟨fun _ => ⟨st, rfl⟩, fun st' h' => ?_⟩
    cases h'
    exact h
  | cons p ps ih =>
    intro B st h hB hps
    rw [List.flatten_cons, List.length_append] at hB ⊢
    obtain ⟨h3, h4, h5⟩ := hps p (List.mem_cons_self ..)
    have hBR : 4 * (B : ℝ) ≤ 2 ^ 44 := by
      have : (B : ℝ) ≤ 2 ^ 40 := by exact_mod_cast (by omega : B ≤ 2 ^ 40)
      linarith
    obtain ⟨st₁, z, e1, e2, e3, e4, e5⟩ := eSnippet_doubles hln hexp hε hη hsc hlen dropout rnd st h.1 h.2.1 hBR h.2.2 p h3 h4 h5
    have hb₁ : Bounded vocab (B + p.length) st₁ := by
      refine ⟨e2, e3, fun x hx => ⟨(e4 x hx).1, (e4 x hx).2.trans (le_of_eq ?_)⟩⟩
      push_cast
      ring
    obtain ⟨i1, i2⟩ := ih (B + p.length) st₁ hb₁ (by omega) (fun q hq => hps q (List.mem_cons_of_mem _ hq))
    rw [List.foldlM_cons, e1]
    constructor
    · intro hsp
      rw [if_pos (e5 hsp)]
      exact i1 hsp
    · intro st' h'
      by_cases hz : TrainOps.isNormal z = true
      · rw [if_pos hz] at h'
        rw [← Nat.add_assoc]
        exact i2 st' h'
      · rw [if_neg hz] at h'
        cases h'

/-- The number of bytes of some samples. -/
def bytesOf (samples : List Str) : Nat := (samples.map fun s => (enc s).length).sum

theorem eChunk_doubles {ε η : ℝ} (hln : LnWithin ε) (hexp : ExpWithin η) (hε : ε ≤ (1 / 2) ^ 40) (hη : η ≤ (1 / 2) ^ 40)
    {vocab : List (ScoredToken F64)} (hsc : ∀ t ∈ vocab, Spec.Finite t.score ∧ |real t.score| ≤ 64) (hlen : ∀ t ∈ vocab, t.value.length ≤ 256)
    (dropout : F64) (rnd : Nat → F64) : ∀ (chunk : List Str) (B : Nat) (st : EState F64), Bounded vocab B st →
    B + bytesOf chunk ≤ 2 ^ 40 → (∀ s ∈ chunk, BytesCovered vocab (enc s)) →
    (Spread vocab → ∃ st', eChunk (Model.from_ vocab) dropout rnd chunk st = .ok st') ∧
    ∀ st', eChunk (Model.from_ vocab) dropout rnd chunk st = .ok st' → Bounded vocab (B + bytesOf chunk) st' := by
  intro chunk
  induction chunk with
  | nil =>
    intro B st h _ _
    refine ⟨fun _ => ⟨st, rfl⟩, fun st' h' => ?_⟩
    cases h'
    exact h
  | cons s chunk ih =>
    intro B st h hB hs
    have hfl := Parallel.chunks_flatten maxSampleLength (by decide) (enc s)
    have hcons : bytesOf (s :: chunk) = (enc s).length + bytesOf chunk := by
      unfold bytesOf
      rw [List.map_cons, List.sum_cons]
    rw [hcons] at hB ⊢
    have hch : ∀ p ∈ Parallel.chunks maxSampleLength (enc s), p ≠ [] ∧ p.length ≤ maxSampleLength ∧ BytesCovered vocab p := by
      intro p hp'
      obtain ⟨h3, h4⟩ := Parallel.chunks_ne maxSampleLength (by decide) (enc s) p hp'
      refine ⟨h3, h4, fun b hb => hs s (List.mem_cons_self ..) b ?_⟩
      rw [← hfl]
      exact List.mem_flatten.2 ⟨p, hp', hb⟩
    obtain ⟨a1, a2⟩ := ePieces_doubles hln hexp hε hη hsc hlen dropout rnd _ B st h (by rw [hfl]; omega) hch
    rw [hfl] at a2
    unfold eChunk
    rw [List.foldlM_cons]
    have hs' : ∀ q ∈ chunk, BytesCovered vocab (enc q) := fun q hq => hs q (List.mem_cons_of_mem _ hq)
    constructor
    · intro hsp
      obtain ⟨st₁, h1⟩ := a1 hsp
      rw [h1]
      exact (ih _ st₁ (a2 st₁ h1) (by omega) hs').1 hsp
    · intro st' h'
      cases hst : (Parallel.chunks maxSampleLength (enc s)).foldlM (eSnippet (Model.from_ vocab) dropout rnd) st with
      | error e =>
        rw [hst] at h'
        cases h'
      | ok st₁ =>
        rw [hst] at h'
        rw [← Nat.add_assoc]
        exact (ih _ st₁ (a2 st₁ hst) (by omega) hs').2 st' h'

theorem bounded_init (vocab : List (ScoredToken F64)) : Bounded vocab 0 (eInit (Model.from_ vocab)) := by
  refine ⟨.start _, by simp [eInit, Model.vocabSize, Model.from_vocab], ?_⟩
  intro x hx
  unfold eInit at hx
  rw [(List.mem_replicate.1 hx).2]
  obtain ⟨z1, z2⟩ := zero_double
  refine ⟨z1, ?_⟩
  show |real (F64.num false 0)| ≤ _
  rw [z2, abs_zero]
  norm_num

omit [Elementary] in
/-- Whatever the schedule, the frequencies are the workers' results added up in some order. -/
theorem eStep_fold {F : Type} [TrainOps F] {m : Model F} {dropout : F} {samples : List Str} {freqs : List F} (h : EStep m dropout samples freqs) :
    ∃ n sts, 0 < n ∧ List.Forall₂ (fun chunk st => ∃ rnd, eChunk m dropout rnd chunk (eInit m) = .ok st) (Parallel.chunks n samples) sts ∧
      freqs.length = m.vocabSize ∧
      ∀ (i : Nat) (x : F), freqs[i]? = some x → ∃ l : List F, l.Perm (sts.flatMap fun st => st.expected[i]?.toList) ∧ x = l.foldl ScoreOps.add ScoreOps.zero := by
  obtain ⟨val, hv, rfl⟩ := h
  let _ : Zero F := ⟨ScoreOps.zero⟩
  let _ : Add F := ⟨ScoreOps.add⟩
  obtain ⟨n, programs, sched, s, hn, hp, hrun, hfin, rfl⟩ := hv
  obtain ⟨sts, h1, rfl⟩ : ∃ sts : List (EState F), List.Forall₂ (fun chunk st => ∃ rnd, eChunk m dropout rnd chunk (eInit m) = .ok st)
      (Parallel.chunks n samples) sts ∧ programs = (sts.map fun st => st.expected.zipIdx.map fun p => (p.2, p.1)).map Parallel.lockedAdds := by
    clear hrun hfin
    generalize Parallel.chunks n samples = cs at hp ⊢
    induction hp with
    | nil => exact ⟨[], .nil, rfl⟩
    | cons h1 _ ih =>
      obtain ⟨rnd, st, h2, rfl⟩ := h1
      obtain ⟨sts, h3, rfl⟩ := ih
      exact ⟨st :: sts, .cons ⟨rnd, h2⟩ h3, rfl⟩
  refine ⟨n, sts, hn, h1, by simp, ?_⟩
  intro i x hx
  rw [List.getElem?_map] at hx
  cases hr : (List.range m.vocabSize)[i]? with
  | none => rw [hr] at hx; simp at hx
  | some j =>
    rw [hr] at hx
    have hj : j = i := by
      obtain ⟨_, e⟩ := List.getElem?_eq_some_iff.1 hr
      rw [List.getElem_range] at e
      exact e.symm
    subst hj
    simp only [Option.map_some, Option.some.injEq] at hx
    obtain ⟨l, hl, hl'⟩ := Parallel.run_addsUp _ hrun hfin j
    refine ⟨l, ?_, by rw [← hx, hl']; rfl⟩
    rw [← Multiset.coe_eq_coe, hl, List.map_map]
    clear hl hl' hrun h1 hfin hx hp
    induction sts with
    | nil => rfl
    | cons st sts ih =>
      rw [List.map_cons, List.sum_cons, ih, List.flatMap_cons, ← Multiset.coe_add]
      congr 1
      exact Parallel.entrySum_vector _ _

omit [Elementary] in
/-- If no worker panics, the E-step returns. -/
theorem eStep_returns {F : Type} [TrainOps F] (m : Model F) (dropout : F) (samples : List Str) (rnd : Nat → F)
    (h : ∀ chunk ∈ Parallel.chunks 1 samples, ∃ st, eChunk m dropout rnd chunk (eInit m) = .ok st) :
    ∃ freqs, EStep m dropout samples freqs := by
  let _ : Zero F := ⟨ScoreOps.zero⟩
  let _ : Add F := ⟨ScoreOps.add⟩
  have : ∀ cs : List (List Str), (∀ c ∈ cs, ∃ st, eChunk m dropout rnd c (eInit m) = .ok st) → ∃ entries : List (List (Nat × F)),
      List.Forall₂ (EWorker m dropout) cs (entries.map Parallel.lockedAdds) := by
    intro cs
    induction cs with
    | nil => intro _; exact ⟨[], .nil⟩
    | cons c cs ih =>
      intro hcs
      obtain ⟨entries, h1⟩ := ih (fun c hc => hcs c (List.mem_cons_of_mem _ hc))
      obtain ⟨st, h2⟩ := hcs c (List.mem_cons_self ..)
      exact ⟨(st.expected.zipIdx.map fun p => (p.2, p.1)) :: entries, .cons ⟨rnd, st, h2, rfl⟩ h1⟩
  obtain ⟨entries, h1⟩ := this (Parallel.chunks 1 samples) h
  obtain ⟨sched, s, h2, h3⟩ := Parallel.run_exists entries
  exact ⟨_, s.val, ⟨1, _, sched, s, by omega, h1, h2, h3, rfl⟩, rfl⟩

omit [Elementary] in
theorem foldl_bound {B : ℝ} (hB : B ≤ 2 ^ 100) (hB0 : 0 ≤ B) : ∀ (xs : List F64) (a : F64), Spec.Finite a → (∀ x ∈ xs, Spec.Finite x) →
    |real a| + (xs.map fun x => |real x| + F64.u * B).sum ≤ B →
    Spec.Finite (xs.foldl F64.add a) ∧ |real (xs.foldl F64.add a)| ≤ |real a| + (xs.map fun x => |real x| + F64.u * B).sum := by
  intro xs
  induction xs with
  | nil => intro a ha _ _; exact ⟨ha, by simp⟩
  | cons x xs ih =>
    intro a ha hxs hs
    rw [List.map_cons, List.sum_cons] at hs ⊢
    have hu := F64.u_pos
    have hsum0 : 0 ≤ (xs.map fun x => |real x| + F64.u * B).sum := by
      apply List.sum_nonneg
      intro y hy
      obtain ⟨x, _, rfl⟩ := List.mem_map.1 hy
      exact add_nonneg (abs_nonneg _) (mul_nonneg hu.le hB0)
    have hab := abs_add_le (real a) (real x)
    have huB := mul_nonneg hu.le hB0
    have hn := (near_self ha).add (near_self (hxs x (List.mem_cons_self ..))) (B := B) (by linarith) hB
    have h2 : |real (F64.add a x)| ≤ |real a| + |real x| + F64.u * B := by
      have h3 := hn.2
      have h4 := abs_sub_abs_le_abs_sub (real (F64.add a x)) (real a + real x)
      linarith
    obtain ⟨i1, i2⟩ := ih (F64.add a x) hn.1 (fun y hy => hxs y (List.mem_cons_of_mem _ hy)) (by linarith)
    exact ⟨i1, by rw [List.foldl_cons]; linarith⟩

omit [Elementary] in
theorem chunk_sublist {α : Type} {n : Nat} (hn : 0 < n) {l c : List α} (h : c ∈ Parallel.chunks n l) : c.Sublist l := by
  have := List.sublist_flatten_of_mem h
  rwa [Parallel.chunks_flatten n hn l] at this

omit [Elementary] in
theorem bytesOf_sublist {a b : List Str} (h : a.Sublist b) : bytesOf a ≤ bytesOf b := by
  unfold bytesOf
  exact (h.map _).sum_le_sum (fun _ _ => Nat.zero_le _)

omit [Elementary] in
theorem chunks_bytes (n : Nat) (hn : 0 < n) (samples : List Str) :
    ((Parallel.chunks n samples).map bytesOf).sum = bytesOf samples ∧ (Parallel.chunks n samples).length ≤ samples.length := by
  have hne := Parallel.chunks_ne n hn samples
  have hfl := Parallel.chunks_flatten n hn samples
  generalize Parallel.chunks n samples = cs at *
  subst hfl
  induction cs with
  | nil => exact ⟨rfl, le_refl _⟩
  | cons c cs ih =>
    obtain ⟨i1, i2⟩ := ih (fun c hc => hne c (List.mem_cons_of_mem _ hc))
    have h0 : 0 < c.length := List.length_pos_iff.2 (hne c (List.mem_cons_self ..)).1
    constructor
    · rw [List.map_cons, List.sum_cons, i1]
      unfold bytesOf
      rw [List.flatten_cons, List.map_append, List.sum_append]
    · rw [List.flatten_cons, List.length_append, List.length_cons]
      omega

/-- The frequencies the E-step computes. -/
theorem eStep_bounds {ε η : ℝ} (hln : LnWithin ε) (hexp : ExpWithin η) (hε : ε ≤ (1 / 2) ^ 40) (hη : η ≤ (1 / 2) ^ 40)
    {vocab : List (ScoredToken F64)} {samples : List Str} (hfit : FitForDoubles vocab samples) {dropout : F64} {freqs : List F64}
    (h : EStep (Model.from_ vocab) dropout samples freqs) :
    freqs.length = vocab.length ∧ ∀ f ∈ freqs, Spec.Finite f ∧ |real f| ≤ 2 ^ 43 := by
  obtain ⟨n, sts, hn, h1, h2, h3⟩ := eStep_fold h
  rw [Model.vocabSize, Model.from_vocab] at h2
  refine ⟨h2, ?_⟩
  intro f hf
  obtain ⟨i, hi⟩ := List.mem_iff_getElem?.1 hf
  obtain ⟨l, hl, rfl⟩ := h3 i f hi
  have hcov : ∀ s ∈ samples, BytesCovered vocab (enc s) := by
    intro s hs b hb
    obtain ⟨t, ht, e, _⟩ := hfit.covered s hs b hb
    exact ⟨t, ht, e⟩
  obtain ⟨hby, hnum⟩ := chunks_bytes n hn samples
  have hBu : F64.u * 2 ^ 43 = 1 / 1024 := by unfold F64.u; norm_num
  have hsts : (∀ x ∈ sts.flatMap (fun st => st.expected[i]?.toList), Spec.Finite x) ∧
      ((sts.flatMap (fun st => st.expected[i]?.toList)).map fun x => |real x| + F64.u * 2 ^ 43).sum ≤
        4 * ((((Parallel.chunks n samples).map bytesOf).sum : Nat) : ℝ) + (((Parallel.chunks n samples).length : Nat) : ℝ) * (1 / 1024) := by
    have hsub : ∀ c ∈ Parallel.chunks n samples, c.Sublist samples := fun c hc => chunk_sublist hn hc
    clear hl h2 h3 hi hf hby hnum
    generalize Parallel.chunks n samples = cs at *
    induction h1 with
    | nil => simp
    | @cons c st cs sts hc _ ih =>
      obtain ⟨i1, i2⟩ := ih (fun c hc => hsub c (List.mem_cons_of_mem _ hc))
      obtain ⟨rnd, hc⟩ := hc
      have hcs := hsub c (List.mem_cons_self ..)
      have hb := bytesOf_sublist hcs
      have hb' : bytesOf samples ≤ 2 ^ 40 := hfit.bytes
      have hbd := (eChunk_doubles hln hexp hε hη hfit.scores hfit.lengths dropout rnd c 0 _ (bounded_init vocab) (by omega)
        (fun s hs => hcov s (hcs.subset hs))).2 st hc
      rw [Nat.zero_add] at hbd
      rw [List.flatMap_cons]
      constructor
      · intro x hx
        rcases List.mem_append.1 hx with h | h
        · exact (hbd.2.2 x (List.mem_of_getElem? (Option.mem_toList.1 h))).1
        · exact i1 x h
      · rw [List.map_append, List.sum_append, List.map_cons, List.sum_cons, List.length_cons]
        have : ((st.expected[i]?.toList).map fun x => |real x| + F64.u * 2 ^ 43).sum ≤ 4 * (bytesOf c : ℝ) + 1 / 1024 := by
          cases he : st.expected[i]? with
          | none =>
            simp only [Option.toList_none, List.map_nil, List.sum_nil]
            positivity
          | some x =>
            have := (hbd.2.2 x (List.mem_of_getElem? he)).2
            simp only [Option.toList_some, List.map_cons, List.map_nil, List.sum_cons, List.sum_nil]
            rw [hBu]
            linarith
        rw [Nat.cast_add, Nat.cast_add, Nat.cast_one]
        linarith
  obtain ⟨a1, a2⟩ := hsts
  rw [hby] at a2
  have b1 : ((bytesOf samples : Nat) : ℝ) ≤ 2 ^ 40 := by exact_mod_cast hfit.bytes
  have b2 : (((Parallel.chunks n samples).length : Nat) : ℝ) ≤ 2 ^ 40 := by exact_mod_cast hnum.trans hfit.number
  rw [← (hl.map _).sum_eq] at a2
  obtain ⟨z1, z2⟩ := zero_double
  have hsum : |real (F64.num false 0)| + (l.map fun x => |real x| + F64.u * 2 ^ 43).sum ≤ 2 ^ 43 := by
    rw [z2, abs_zero]
    have h5 : (4 : ℝ) * 2 ^ 40 + 2 ^ 40 * (1 / 1024) ≤ 2 ^ 43 := by norm_num
    have h6 := mul_le_mul_of_nonneg_right b2 (show (0 : ℝ) ≤ 1 / 1024 by norm_num)
    rw [zero_add]
    exact a2.trans (le_trans (add_le_add (mul_le_mul_of_nonneg_left b1 (by norm_num)) h6) h5)
  obtain ⟨r1, r2⟩ := foldl_bound (B := 2 ^ 43) (by norm_num) (by norm_num) l (F64.num false 0) z1 (fun x hx => a1 x (hl.subset hx)) hsum
  exact ⟨r1, r2.trans hsum⟩

end Pruner
end Tokengeex

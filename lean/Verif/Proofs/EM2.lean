import Verif.Proofs.EM
import Verif.Proofs.Feed
import Verif.Proofs.Prune3
/-
The E-step returns.
-/
namespace Tokengeex
open Spec ScoreOps

namespace Pruner

/-- What the E-step can add to the expected frequencies for a piece of a sample. -/
def PieceGives (vocab : List (ScoredToken ℝ)) (dropout : ℝ) (p : List UInt8) (y : Nat → ℝ) : Prop :=
  ∃ es segs, (∀ e ∈ es, TokenAt vocab p e) ∧ es.Pairwise (fun a b => ¬ (a.pos = b.pos ∧ a.len = b.len)) ∧
    (∀ e, TokenAt vocab p e → e.len = 1 → e ∈ es) ∧ (lt zero dropout = false → ∀ e, TokenAt vocab p e → e ∈ es) ∧
    AllSegmentations p.length es segs ∧ p.length ≤ maxSampleLength ∧ BytesCovered vocab p ∧
    ∀ i, i < vocab.length →
      expectedCount es segs i * Real.exp (-(2 * (es.length + 2) * Real.exp (-50))) ≤ y i ∧
      y i ≤ expectedCount es segs i * Real.exp ((es.length + 2) * Real.exp (-50))

/-- What the E-step can add for a sample. -/
def SampleGives (vocab : List (ScoredToken ℝ)) (dropout : ℝ) (s : Str) (y : Nat → ℝ) : Prop :=
  ∃ ys, List.Forall₂ (PieceGives vocab dropout) (Parallel.chunks maxSampleLength (enc s)) ys ∧ y = fun i => (ys.map (· i)).sum

variable {vocab : List (ScoredToken ℝ)}

theorem eSnippet_ok (h2 : 2 ≤ vocab.length ∨ (vocab.map fun t => Real.exp t.score).sum < 1) (hp : SubProbability vocab) (dropout : ℝ) (rnd : Nat → ℝ) (st : EState ℝ)
    (hist : History st.pool st.lattice) (hlen : st.expected.length = vocab.length) (p : List UInt8) (hne : p ≠ [])
    (hmax : p.length ≤ maxSampleLength) (hb : BytesCovered vocab p) :
    ∃ st' y, eSnippet (Model.from_ vocab) dropout rnd st p = .ok st' ∧ History st'.pool st'.lattice ∧
      st'.expected.length = vocab.length ∧ PieceGives vocab dropout p y ∧
      ∀ i, i < vocab.length → st'.expected.getD i 0 = st.expected.getD i 0 + y i := by
  obtain ⟨pool', hfrom, _⟩ := from_clean st.lattice p (history_clean hist)
  obtain ⟨es, k, hpop, hT, hd, hone, hall⟩ := C33_populate vocab p dropout (fun i => rnd (st.draws + i))
  obtain ⟨hi, hg, hde, hid⟩ := noGaps_of_bytes hb hT hone
  obtain ⟨segs, hsegs⟩ := segmentations_exist p.length es hi
  obtain ⟨ex', z, hm, hz, _, hl', hinc⟩ := C36_marginal st.pool pool' st.lattice _ _ hist p es hfrom hi
    (insertAll p es hi) hg hde segs hsegs st.expected (by rw [hlen]; exact hid)
  have hlt : Real.log (partition es segs) < 0 := by
    rw [(partition_eq hi hsegs).2]
    exact Real.log_neg (total_pos hi hg) (total_lt_one hT hd hi h2 hp _ (List.length_pos_iff.2 hne))
  have hz0 : z ≠ 0 := by
    intro e
    rw [e] at hz
    linarith
  refine ⟨⟨latticeOf p es, pool', st.draws + k, ex'⟩, fun i => ex'.getD i 0 - st.expected.getD i 0, ?_, ?_, by
    simpa [hlen] using hl', ⟨es, segs, hT, hd, hone, hall, hsegs, hmax, hb, ?_⟩, ?_⟩
  · unfold eSnippet
    rw [hfrom]
    simp only [res_bind_ok]
    rw [hpop]
    simp only [res_bind_ok]
    rw [hm]
    simp only [res_bind_ok]
    have : TrainOps.isNormal z = true := by
      show decide (z ≠ 0) = true
      simpa using hz0
    rw [this]
    rfl
  · exact (History.reinit p hist hfrom).other _
  · intro i hi'
    have hi2 : i < st.expected.length := by omega
    obtain ⟨inc, h3, h4, h5⟩ := hinc i _ (List.getElem?_eq_getElem hi2)
    have : ex'.getD i 0 - st.expected.getD i 0 = inc := by
      rw [List.getD_eq_getElem?_getD, List.getD_eq_getElem?_getD, h3, List.getElem?_eq_getElem hi2]
      simp
    simp only [this]
    exact ⟨h4, h5⟩
  · intro i _
    ring

theorem ePieces_ok (h2 : 2 ≤ vocab.length ∨ (vocab.map fun t => Real.exp t.score).sum < 1) (hp : SubProbability vocab) (dropout : ℝ) (rnd : Nat → ℝ) :
    ∀ (ps : List (List UInt8)) (st : EState ℝ), History st.pool st.lattice → st.expected.length = vocab.length →
    (∀ p ∈ ps, p ≠ [] ∧ p.length ≤ maxSampleLength ∧ BytesCovered vocab p) →
    ∃ st' ys, ps.foldlM (eSnippet (Model.from_ vocab) dropout rnd) st = .ok st' ∧ History st'.pool st'.lattice ∧
      st'.expected.length = vocab.length ∧ List.Forall₂ (PieceGives vocab dropout) ps ys ∧
      ∀ i, i < vocab.length → st'.expected.getD i 0 = st.expected.getD i 0 + (ys.map (· i)).sum := by
  intro ps
  induction ps with
  | nil => intro st h hl _; exact ⟨st, [], rfl, h, hl, .nil, by simp⟩
  | cons p ps ih =>
    intro st h hl hps
    obtain ⟨h3, h4, h5⟩ := hps p (List.mem_cons_self ..)
    obtain ⟨st₁, y, e1, e2, e3, e4, e5⟩ := eSnippet_ok h2 hp dropout rnd st h hl p h3 h4 h5
    obtain ⟨st', ys, f1, f2, f3, f4, f5⟩ := ih st₁ e2 e3 (fun q hq => hps q (List.mem_cons_of_mem _ hq))
    refine ⟨st', y :: ys, ?_, f2, f3, .cons e4 f4, ?_⟩
    · rw [List.foldlM_cons, e1]
      exact f1
    · intro i hi
      rw [f5 i hi, e5 i hi, List.map_cons, List.sum_cons]
      ring

theorem eChunk_ok (h2 : 2 ≤ vocab.length ∨ (vocab.map fun t => Real.exp t.score).sum < 1) (hp : SubProbability vocab) (dropout : ℝ) (rnd : Nat → ℝ) :
    ∀ (chunk : List Str) (st : EState ℝ), History st.pool st.lattice → st.expected.length = vocab.length →
    (∀ s ∈ chunk, BytesCovered vocab (enc s)) →
    ∃ st' ys, eChunk (Model.from_ vocab) dropout rnd chunk st = .ok st' ∧ History st'.pool st'.lattice ∧
      st'.expected.length = vocab.length ∧ List.Forall₂ (SampleGives vocab dropout) chunk ys ∧
      ∀ i, i < vocab.length → st'.expected.getD i 0 = st.expected.getD i 0 + (ys.map (· i)).sum := by
  intro chunk
  induction chunk with
  | nil => intro st h hl _; exact ⟨st, [], rfl, h, hl, .nil, by simp⟩
  | cons s chunk ih =>
    intro st h hl hs
    have hch : ∀ p ∈ Parallel.chunks maxSampleLength (enc s), p ≠ [] ∧ p.length ≤ maxSampleLength ∧ BytesCovered vocab p := by
      intro p hp'
      obtain ⟨h3, h4⟩ := Parallel.chunks_ne maxSampleLength (by decide) (enc s) p hp'
      refine ⟨h3, h4, fun b hb => hs s (List.mem_cons_self ..) b ?_⟩
      rw [← Parallel.chunks_flatten maxSampleLength (by decide) (enc s)]
      exact List.mem_flatten.2 ⟨p, hp', hb⟩
    obtain ⟨st₁, ys, e1, e2, e3, e4, e5⟩ := ePieces_ok h2 hp dropout rnd _ st h hl hch
    obtain ⟨st', zs, f1, f2, f3, f4, f5⟩ := ih st₁ e2 e3 (fun q hq => hs q (List.mem_cons_of_mem _ hq))
    refine ⟨st', (fun i => (ys.map (· i)).sum) :: zs, ?_, f2, f3, .cons ⟨ys, e4, rfl⟩ f4, ?_⟩
    · unfold eChunk
      rw [List.foldlM_cons, e1]
      exact f1
    · intro i hi
      rw [f5 i hi, e5 i hi, List.map_cons, List.sum_cons]
      ring

theorem eInit_history (m : Model ℝ) : History (eInit m).pool (eInit m).lattice := .start _

/-- Every worker of the E-step returns. -/
theorem eWorker_ok (h2 : 2 ≤ vocab.length ∨ (vocab.map fun t => Real.exp t.score).sum < 1) (hp : SubProbability vocab) (dropout : ℝ) (rnd : Nat → ℝ) (chunk : List Str)
    (hc : ∀ s ∈ chunk, BytesCovered vocab (enc s)) :
    ∃ st ys, eChunk (Model.from_ vocab) dropout rnd chunk (eInit (Model.from_ vocab)) = .ok st ∧
      st.expected.length = vocab.length ∧ List.Forall₂ (SampleGives vocab dropout) chunk ys ∧
      ∀ i, i < vocab.length → st.expected.getD i 0 = (ys.map (· i)).sum := by
  obtain ⟨st, ys, h3, _, h5, h6, h7⟩ := eChunk_ok h2 hp dropout rnd chunk (eInit (Model.from_ vocab)) (eInit_history _) (by
    simp [eInit, Model.vocabSize, Model.from_vocab]) hc
  refine ⟨st, ys, h3, h5, h6, fun i hi => ?_⟩
  rw [h7 i hi]
  have : (eInit (Model.from_ vocab)).expected.getD i 0 = 0 := by
    unfold eInit
    simp only [List.getD_eq_getElem?_getD, List.getElem?_replicate]
    split <;> rfl
  rw [this, zero_add]

theorem entrySum_zipIdx_real (l : List ℝ) (i : Nat) :
    Parallel.entrySum i (l.zipIdx.map fun p => (p.2, p.1)) = l.getD i 0 := by
  have : ∀ (l : List ℝ) (k : Nat), Parallel.entrySum i ((l.zipIdx k).map fun p => (p.2, p.1)) = if i < k then 0 else l.getD (i - k) 0 := by
    intro l
    induction l with
    | nil => intro k; simp [Parallel.entrySum]
    | cons x l ih =>
      intro k
      have := ih (k + 1)
      unfold Parallel.entrySum at this ⊢
      rw [List.zipIdx_cons, List.map_cons, List.map_cons, List.sum_cons, this]
      rcases Nat.lt_trichotomy i k with h | h | h
      · rw [if_neg (by simp; omega), if_pos (by omega), if_pos h, add_zero]
      · subst h
        simp
      · rw [if_neg (by simp; omega), if_neg (by omega), if_neg (by omega), zero_add]
        rw [show i - k = (i - (k + 1)) + 1 by omega, List.getD_cons_succ]
  have h := this l 0
  simpa using h

/-- The E-step returns. -/
theorem eStep_exists (h2 : 2 ≤ vocab.length ∨ (vocab.map fun t => Real.exp t.score).sum < 1) (hp : SubProbability vocab) (dropout : ℝ) (samples : List Str)
    (hc : ∀ s ∈ samples, BytesCovered vocab (enc s)) : ∃ freqs, EStep (Model.from_ vocab) dropout samples freqs := by
  obtain ⟨val, hv⟩ := parCount_exists (K := Nat) (M := ℝ) (Worker := EWorker (Model.from_ vocab) dropout) (fun _ => 0) 1 (by omega) samples (by
    intro chunk hch
    have hsub : ∀ s ∈ chunk, s ∈ samples := by
      intro s hs
      rw [← Parallel.chunks_flatten 1 (by omega) samples]
      exact List.mem_flatten.2 ⟨chunk, hch, hs⟩
    obtain ⟨st, _, h3, _⟩ := eWorker_ok h2 hp dropout (fun _ => 0) chunk (fun s hs => hc s (hsub s hs))
    exact ⟨_, ⟨_, st, h3, rfl⟩, Parallel.safe_locked _⟩)
  exact ⟨_, val, hv, rfl⟩

/-- What the E-step returns. -/
theorem eStep_gives (h2 : 2 ≤ vocab.length ∨ (vocab.map fun t => Real.exp t.score).sum < 1) (hp : SubProbability vocab) (dropout : ℝ) (samples : List Str)
    (hc : ∀ s ∈ samples, BytesCovered vocab (enc s)) {freqs : List ℝ} (h : EStep (Model.from_ vocab) dropout samples freqs) :
    freqs.length = vocab.length ∧ ∃ ys, List.Forall₂ (SampleGives vocab dropout) samples ys ∧
      ∀ i, i < vocab.length → freqs[i]? = some ((ys.map (· i)).sum) := by
  obtain ⟨val, hv, rfl⟩ := h
  rw [Model.vocabSize, Model.from_vocab]
  have hv' : @ParCount Nat Str _ ℝ _ _ (fun chunk p => (∀ s ∈ chunk, s ∈ samples) ∧ EWorker (Model.from_ vocab) dropout chunk p) samples val := by
    obtain ⟨n, programs, sched, s, hn, hpr, hrest⟩ := hv
    refine ⟨n, programs, sched, s, hn, ?_, hrest⟩
    have : ∀ cs : List (List Str), (∀ c ∈ cs, ∀ s ∈ c, s ∈ samples) → ∀ ps, List.Forall₂ (EWorker (Model.from_ vocab) dropout) cs ps →
        List.Forall₂ (fun chunk p => (∀ s ∈ chunk, s ∈ samples) ∧ EWorker (Model.from_ vocab) dropout chunk p) cs ps := by
      intro cs hcs ps h
      induction h with
      | nil => exact .nil
      | cons h1 _ ih =>
        exact .cons ⟨hcs _ (List.mem_cons_self ..), h1⟩ (ih (fun c hc => hcs c (List.mem_cons_of_mem _ hc)))
    refine this _ ?_ _ hpr
    intro c hc' s hs
    rw [← Parallel.chunks_flatten n hn samples]
    exact List.mem_flatten.2 ⟨c, hc', hs⟩
  refine ⟨by simp, ?_⟩
  obtain ⟨ys, h3, h4⟩ := parCount_choice (K := Nat) (M := ℝ) (fun _ => 0)
    (fun s (y : Nat → ℝ) => ∃ z, SampleGives vocab dropout s z ∧ y = fun i => if i < vocab.length then z i else 0)
    (fun i y => y i) (by
    rintro chunk p ⟨hsub, rnd, st, hst, rfl⟩
    refine ⟨Parallel.safe_locked _, ?_⟩
    obtain ⟨st', ys, e1, e2, e3, e4⟩ := eWorker_ok h2 hp dropout rnd chunk (fun s hs => hc s (hsub s hs))
    rw [hst] at e1
    cases e1
    refine ⟨ys.map (fun z i => if i < vocab.length then z i else 0), ?_, ?_⟩
    · clear e4 hst e2 hsub
      induction e3 with
      | nil => exact .nil
      | cons h1 _ ih => exact .cons ⟨_, h1, rfl⟩ ih
    · intro i
      rw [Parallel.pending_locked, entrySum_zipIdx_real, List.map_map]
      by_cases hi : i < vocab.length
      · rw [e4 i hi]
        congr 1
        apply List.map_congr_left
        intro z _
        simp [hi]
      · rw [List.getD_eq_getElem?_getD, List.getElem?_eq_none (by omega), Option.getD_none]
        symm
        apply List.sum_eq_zero
        intro x hx
        obtain ⟨z, _, rfl⟩ := List.mem_map.1 hx
        simp [hi]) hv'
  have : ∀ (l : List Str) (ys : List (Nat → ℝ)),
      List.Forall₂ (fun s (y : Nat → ℝ) => ∃ z, SampleGives vocab dropout s z ∧ y = fun i => if i < vocab.length then z i else 0) l ys →
      ∃ zs, List.Forall₂ (SampleGives vocab dropout) l zs ∧ ∀ i, i < vocab.length → (ys.map (· i)).sum = (zs.map (· i)).sum := by
    intro l ys h
    induction h with
    | nil => exact ⟨[], .nil, by simp⟩
    | cons h1 _ ih =>
      obtain ⟨z, h5, rfl⟩ := h1
      obtain ⟨zs, h6, h7⟩ := ih
      refine ⟨z :: zs, .cons h5 h6, fun i hi => ?_⟩
      rw [List.map_cons, List.sum_cons, List.map_cons, List.sum_cons, h7 i hi]
      simp [hi]
  obtain ⟨zs, h5, h6⟩ := this _ _ h3
  refine ⟨zs, h5, fun i hi => ?_⟩
  rw [List.getElem?_map, List.getElem?_range hi, Option.map_some, h4 i, h6 i hi]

end Pruner
end Tokengeex

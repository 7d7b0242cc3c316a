import Verif.Model.CostTrain
import Verif.Props.CostLattice
import Verif.Spec.Overflow
import Verif.Proofs.Parallel
import Verif.Model.Float64Train
/-
C120 for a whole E-step: its time is linear in the size of the corpus.
-/
namespace Tokengeex
open Spec

namespace Cost

theorem foldCost_inv {α σ : Type} {f : σ → α → Res σ × Nat} (P : σ → Prop) (w : α → Nat) : ∀ (l : List α) (s : σ), P s →
    (∀ s, ∀ a ∈ l, P s → (f s a).2 ≤ w a ∧ ∀ s', (f s a).1 = .ok s' → P s') →
    (foldCost f l s).2 ≤ (l.map w).sum ∧ ∀ s', (foldCost f l s).1 = .ok s' → P s'
  | [], s, hs, _ => by
    refine ⟨by simp [foldCost], fun s' h => ?_⟩
    simp only [foldCost, Except.ok.injEq] at h
    exact h ▸ hs
  | a :: l, s, hs, h => by
    obtain ⟨h1, h2⟩ := h s a (by simp) hs
    unfold foldCost andThen
    cases hx : (f s a).1 with
    | error e =>
      refine ⟨?_, fun s' h => by simp at h⟩
      simp only [List.map_cons, List.sum_cons]
      omega
    | ok b =>
      obtain ⟨h3, h4⟩ := foldCost_inv P w l b (h2 b hx) fun s a ha => h s a (by simp [ha])
      refine ⟨?_, h4⟩
      simp only [List.map_cons, List.sum_cons]
      omega

variable {F : Type} [TrainOps F]

theorem eSnippet_fst (m : Model F) (dropout : F) (rnd : Nat → F) (st : Pruner.EState F) (snippet : List UInt8) :
    (eSnippet m dropout rnd st snippet).1 = Pruner.eSnippet m dropout rnd st snippet := by
  unfold eSnippet Pruner.eSnippet
  refine andThen_fst rfl fun r _ => andThen_fst (populateNodes_fst ..) fun q _ => andThen_fst (populateMarginal_fst _ _) fun e _ => rfl

theorem eChunk_fst (m : Model F) (dropout : F) (rnd : Nat → F) (chunk : List Str) (st : Pruner.EState F) :
    (eChunk m dropout rnd chunk st).1 = Pruner.eChunk m dropout rnd chunk st := by
  unfold eChunk Pruner.eChunk
  refine foldCost_fst fun s a _ => ?_
  show (foldCost _ _ _).1 = _
  exact foldCost_fst fun s a _ => eSnippet_fst m dropout rnd s a

theorem andThen_ok_fst {α β : Type} {x : Res α × Nat} {f : α → Res β × Nat} {b : β} (h : (andThen x f).1 = .ok b) :
    ∃ a, x.1 = .ok a ∧ (f a).1 = .ok b := by
  unfold andThen at h
  cases hx : x.1 with
  | error e => rw [hx] at h; simp at h
  | ok a => rw [hx] at h; exact ⟨a, rfl, h⟩

theorem eSnippet_snd (vocab : List (ScoredToken F)) (longest : Nat) (hl : ∀ t ∈ vocab, t.value.length ≤ longest) (dropout : F)
    (rnd : Nat → F) (st : Pruner.EState F) (hist : History st.pool st.lattice) (snippet : List UInt8) (hne : snippet ≠ []) :
    (eSnippet (Model.from_ vocab) dropout rnd st snippet).2 ≤ 5 * (longest + 3) ^ 2 * snippet.length ∧
    ∀ st', (eSnippet (Model.from_ vocab) dropout rnd st snippet).1 = .ok st' → History st'.pool st'.lattice := by
  have hpos := List.length_pos_iff.2 hne
  constructor
  · unfold eSnippet
    have : (andThen (st.lattice.from_ snippet st.pool, 0) fun r =>
        andThen (populateNodes (Model.from_ vocab) r.1 dropout (fun i => rnd (st.draws + i))) fun q =>
        andThen (populateMarginal q.1 st.expected) fun e =>
          (if !TrainOps.isNormal e.2 then .error .panic
            else pure { lattice := q.1, pool := r.2, draws := st.draws + q.2, expected := e.1 }, 1) : Res (Pruner.EState F) × Nat).2 ≤
        0 + ((2 * longest + 2) * snippet.length + (2 * (longest + 3) ^ 2 * (snippet.length + 1) + 1)) := by
      refine andThen_snd (le_refl _) fun r hr => ?_
      obtain ⟨h1, h2, l₁, k, h3, _, _, _, h4⟩ := C120_linear vocab longest hl st.pool r.2 st.lattice r.1 hist snippet hr dropout
        (fun i => rnd (st.draws + i))
      refine andThen_snd h2 fun q hq => ?_
      rw [h1, h3] at hq
      simp only [Except.ok.injEq] at hq
      subst hq
      exact andThen_snd (h4 _).2 fun e _ => le_refl _
    refine le_trans this ?_
    nlinarith [Nat.zero_le (longest * snippet.length), Nat.zero_le (longest ^ 2 * (snippet.length - 1)),
      Nat.mul_le_mul (Nat.le_refl ((longest + 3) ^ 2)) hpos]
  · intro st' h
    obtain ⟨r, hr, h⟩ := andThen_ok_fst h
    obtain ⟨q, _, h⟩ := andThen_ok_fst h
    obtain ⟨e, _, h⟩ := andThen_ok_fst h
    dsimp only at h
    split at h
    · cases h
    · cases h
      exact .other _ (.reinit snippet hist hr)

theorem eChunk_snd (vocab : List (ScoredToken F)) (longest : Nat) (hl : ∀ t ∈ vocab, t.value.length ≤ longest) (dropout : F)
    (rnd : Nat → F) (chunk : List Str) :
    (eChunk (Model.from_ vocab) dropout rnd chunk (Pruner.eInit (Model.from_ vocab))).2 ≤
      chunk.length + 5 * (longest + 3) ^ 2 * totalBytes chunk := by
  unfold eChunk
  refine le_trans (foldCost_inv (fun st => History st.pool st.lattice) (fun s => 1 + 5 * (longest + 3) ^ 2 * (enc s).length)
    chunk _ (.start _) fun st sample _ hist => ?_).1 ?_
  · obtain ⟨h1, h2⟩ := foldCost_inv (f := eSnippet (Model.from_ vocab) dropout rnd) (fun st => History st.pool st.lattice)
      (fun s => 5 * (longest + 3) ^ 2 * s.length)
      (Parallel.chunks Pruner.maxSampleLength (enc sample)) st hist
      fun st snippet hs hist => eSnippet_snd vocab longest hl dropout rnd st hist snippet
        (Parallel.chunks_ne _ (by decide) _ _ hs).1
    refine ⟨?_, h2⟩
    rw [List.sum_map_mul_left] at h1
    rw [show ((Parallel.chunks Pruner.maxSampleLength (enc sample)).map fun s => s.length).sum = (enc sample).length by
      rw [← List.length_flatten, Parallel.chunks_flatten _ (by decide)]] at h1
    exact Nat.add_le_add_left h1 1
  · refine le_of_eq ?_
    unfold totalBytes
    induction chunk with
    | nil => simp
    | cons s chunk ih =>
      simp only [List.map_cons, List.sum_cons, List.length_cons, ih]
      ring

end Cost

/-- **C120** (E-step) An E-step takes time linear in the size of the corpus: with tokens of at most `longest` bytes, however the
samples are cut into chunks and whatever the scores, the dropout and the random numbers of the workers, all workers together take
at most one step for each sample and `5 * (longest + 3)^2` steps for each byte.  The function that counts returns what the worker
computes, and the bound holds also if it panics. -/
theorem C120_e_step {F : Type} [TrainOps F] (vocab : List (ScoredToken F)) (longest : Nat)
    (hl : ∀ t ∈ vocab, t.value.length ≤ longest) (dropout : F) (rnd : List Str → Nat → F) (size : Nat) (hsize : 0 < size)
    (samples : List Str) :
    let m := Model.from_ vocab
    (∀ chunk, (Cost.eChunk m dropout (rnd chunk) chunk (Pruner.eInit m)).1 =
      Pruner.eChunk m dropout (rnd chunk) chunk (Pruner.eInit m)) ∧
    ((Parallel.chunks size samples).map fun chunk => (Cost.eChunk m dropout (rnd chunk) chunk (Pruner.eInit m)).2).sum ≤
      samples.length + 5 * (longest + 3) ^ 2 * totalBytes samples := by
  intro m
  refine ⟨fun chunk => Cost.eChunk_fst .., ?_⟩
  have key : ∀ cs : List (List Str), (cs.map fun chunk => (Cost.eChunk m dropout (rnd chunk) chunk (Pruner.eInit m)).2).sum ≤
      cs.flatten.length + 5 * (longest + 3) ^ 2 * totalBytes cs.flatten := by
    intro cs
    induction cs with
    | nil => simp
    | cons c cs ih =>
      have h : (Cost.eChunk m dropout (rnd c) c (Pruner.eInit m)).2 ≤ c.length + 5 * (longest + 3) ^ 2 * totalBytes c :=
        Cost.eChunk_snd vocab longest hl dropout (rnd c) c
      simp only [List.map_cons, List.sum_cons, List.flatten_cons, List.length_append]
      rw [show totalBytes (c ++ cs.flatten) = totalBytes c + totalBytes cs.flatten by simp [totalBytes]]
      rw [Nat.mul_add]
      omega
  have := key (Parallel.chunks size samples)
  rwa [Parallel.chunks_flatten _ hsize] at this

/-- The hypotheses for three tokens, scores that are doubles, two samples and chunks of one sample. -/
example [Elementary] (rnd : List Str → Nat → F64) (m : Model F64)
    (hm : m = Model.from_ [⟨[97], F64.ofNat 0, true⟩, ⟨[98], F64.ofNat 0, true⟩, ⟨[97, 98], F64.ofNat 0, false⟩]) :
    ((Parallel.chunks 1 ["ab".toList, "ba".toList]).map fun chunk =>
      (Cost.eChunk m (F64.ofNat 0) (rnd chunk) chunk (Pruner.eInit m)).2).sum ≤ 2 + 5 * 5 ^ 2 * 4 := by
  subst hm
  exact (C120_e_step [⟨[97], F64.ofNat 0, true⟩, ⟨[98], F64.ofNat 0, true⟩, ⟨[97, 98], F64.ofNat 0, false⟩] 2 (by simp) (F64.ofNat 0)
    rnd 1 (by decide) ["ab".toList, "ba".toList]).2

end Tokengeex

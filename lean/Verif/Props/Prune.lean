import Verif.Proofs.Prune4
import Verif.Spec.RealTraining
import Verif.Props.Counting
/-
Properties of pruning (C48, C49, C64, C65).
-/
namespace Tokengeex
open Spec ScoreOps RealOps Relation

section
variable {F : Type} [TrainOps F]

/-- **C48** (prune step) Whatever the scores, the frequencies, the heap order and the outcome of the sorts: if `prune_vocab`
returns, it returns entries of the vocabulary, unchanged, at pairwise different positions, and every protected token is
among them.  If no score is NaN, they are in non-increasing order of scores. -/
theorem C48_prune_step (c : Pruner F) (std : Pruner.Std F) (hstd : StdLaws std) (samples : List Str)
    (vocab : List (ScoredToken F)) (hsize : vocab.length ≤ 4294967294) (m' : Model F)
    (h : Pruner.PruneStep c std samples (Model.from_ vocab) m') :
    ∃ w ids, m' = Model.from_ w ∧ ids.Nodup ∧ EntriesAt vocab ids w ∧
      (∀ i t, vocab[i]? = some t → t.keep = true → i ∈ ids) ∧
      (TrainLaws F → (∀ t ∈ vocab, TrainOps.isNan t.score = false) → ScoreSorted w) := by
  obtain ⟨rnd, freqs, w, fuel₀, _, hw, rfl⟩ := h
  obtain ⟨ids, h1, h2, h3, _, h5⟩ := Pruner.pruneVocab_facts hstd hsize hw
  exact ⟨w, ids, rfl, h1, h2, h3, h5⟩

/-- **C48** (EM step) An EM step keeps the order of the tokens, changes nothing but scores, adds no token and drops no
protected token; no score it sets is NaN or infinite. -/
theorem C48_em_step (c : Pruner F) (samples : List Str) (vocab : List (ScoredToken F)) (m' : Model F)
    (h : Pruner.EMStep c samples (Model.from_ vocab) m') :
    ∃ w ids old, m' = Model.from_ w ∧ ids.Pairwise (· < ·) ∧ EntriesAt vocab ids old ∧ List.Forall₂ Rescored old w ∧
      (∀ i t, vocab[i]? = some t → t.keep = true → i ∈ ids) ∧
      (∀ t ∈ w, TrainOps.isNan t.score = false ∧ TrainOps.isInfinite t.score = false) := by
  obtain ⟨freqs, w, fuel₀, _, hw, rfl⟩ := h
  obtain ⟨ids, old, h1, h2, h3, h4, h5⟩ := Pruner.mStep_facts (hw fuel₀ (Nat.le_refl _))
  refine ⟨w, ids, old, rfl, h1, h2, h3, ?_, h5⟩
  intro i t ht hk
  by_contra hn
  have := (h4 i t ht hn).1
  rw [hk] at this
  simp at this

namespace Pruner

theorem emStep_prunedTo {c : Pruner F} {samples : List Str} {vocab : List (ScoredToken F)} {m' : Model F}
    (h : EMStep c samples (Model.from_ vocab) m') : ∃ w, m' = Model.from_ w ∧ PrunedTo vocab w := by
  obtain ⟨w, ids, old, h1, h2, h3, h4, h5, _⟩ := C48_em_step c samples vocab m' h
  exact ⟨w, h1, ids, old, h2.imp (fun h => by omega), h3, h4, h5⟩

theorem emSteps_prunedTo {c : Pruner F} {samples : List Str} {n : Nat} {m m' : Model F} (h : EMSteps c samples n m m') :
    ∀ vocab, m = Model.from_ vocab → ∃ w, m' = Model.from_ w ∧ PrunedTo vocab w := by
  induction h with
  | zero m => intro vocab hm; exact ⟨vocab, hm, prunedTo_refl _⟩
  | @succ n m m₁ m₂ h1 _ ih =>
    intro vocab hm
    subst hm
    obtain ⟨w, h3, h4⟩ := emStep_prunedTo h1
    obtain ⟨w', h5, h6⟩ := ih w h3
    exact ⟨w', h5, prunedTo_trans h4 h6⟩

theorem pruneStep_prunedTo {c : Pruner F} {std : Std F} (hstd : StdLaws std) {samples : List Str}
    {vocab : List (ScoredToken F)} (hsize : vocab.length ≤ 4294967294) {m' : Model F}
    (h : PruneStep c std samples (Model.from_ vocab) m') : ∃ w, m' = Model.from_ w ∧ PrunedTo vocab w := by
  obtain ⟨w, ids, h1, h2, h3, h4, _⟩ := C48_prune_step c std hstd samples vocab hsize m' h
  exact ⟨w, h1, prunedTo_of h2 h3 h4⟩

theorem pass_prunedTo {c : Pruner F} {std : Std F} (hstd : StdLaws std) {samples : List Str}
    {vocab : List (ScoredToken F)} (hsize : vocab.length ≤ 4294967294) {m' : Model F}
    (h : Pass c std samples (Model.from_ vocab) m') : ∃ w, m' = Model.from_ w ∧ PrunedTo vocab w := by
  obtain ⟨_, m₁, h1, h2⟩ := h
  obtain ⟨w₁, rfl, h3⟩ := emSteps_prunedTo h1 vocab rfl
  obtain ⟨w, h4, h5⟩ := pruneStep_prunedTo hstd (Nat.le_trans (prunedTo_length h3) hsize) h2
  exact ⟨w, h4, prunedTo_trans h3 h5⟩

end Pruner

/-- **C48** (the whole of pruning) At every time between two passes of the loop, in particular when pruning returns, the
vocabulary consists of entries of the original one at pairwise different positions, with new scores, and contains every
protected one. -/
theorem C48_run (c : Pruner F) (std : Pruner.Std F) (hstd : StdLaws std) (samples : List Str)
    (vocab : List (ScoredToken F)) (hsize : vocab.length ≤ 4294967294) (m' : Model F)
    (h : ReflTransGen (Pruner.Pass c std samples) (Model.from_ vocab) m') :
    ∃ w, m' = Model.from_ w ∧ PrunedTo vocab w := by
  induction h with
  | refl => exact ⟨vocab, rfl, prunedTo_refl _⟩
  | @tail m₁ m₂ _ h2 ih =>
    obtain ⟨w₁, rfl, h3⟩ := ih
    obtain ⟨w, h4, h5⟩ := Pruner.pass_prunedTo hstd (Nat.le_trans (prunedTo_length h3) hsize) h2
    exact ⟨w, h4, prunedTo_trans h3 h5⟩

/-- **C64** A prune step (unlike an EM step) never makes a text unencodable: every byte string that can be cut into tokens
can be cut into the tokens that are left, so every text that `encode` accepts is still accepted. -/
theorem C64_prune_encodable (c : Pruner F) (std : Pruner.Std F) (hstd : StdLaws std) (samples : List Str)
    (vocab : List (ScoredToken F)) (hsize : vocab.length ≤ 4294967294) (m' : Model F)
    (h : Pruner.PruneStep c std samples (Model.from_ vocab) m') :
    (∃ w, m' = Model.from_ w ∧ ∀ bs, Segmentable vocab bs → Segmentable w bs) ∧
    ∀ (s : Str) (d : F) (rnd rnd' : Nat → F) (ids : List Nat), le d zero = true →
      (Model.from_ vocab).encode s d rnd = .ok ids → ∃ ids', m'.encode s d rnd' = .ok ids' := by
  obtain ⟨rnd, freqs, w, fuel₀, _, hw, rfl⟩ := h
  obtain ⟨ids, h1, h2, h3, h4, _⟩ := Pruner.pruneVocab_facts hstd hsize hw
  have hseg : ∀ bs, Segmentable vocab bs → Segmentable w bs := by
    refine Pruner.segmentable_of_resegments ?_
    intro t ht
    obtain ⟨i, hi⟩ := List.mem_iff_getElem?.1 ht
    by_cases hin : i ∈ ids
    · exact Or.inl (entriesAt_mem h2 hin hi)
    · exact Or.inr (h4 i t hi hin)
  refine ⟨⟨w, rfl, hseg⟩, ?_⟩
  intro s d rnd rnd' ids hd he
  exact (C03_encode_complete w s d rnd' hd).1.2 (hseg _ ((C03_encode_complete vocab s d rnd hd).1.1 ⟨ids, he⟩))

/-! ### C49 -/

/-- **C49** fails: with more protected tokens than requested tokens, pruning never returns, whatever the corpus. -/
theorem C49_never (c : Pruner F) (std : Pruner.Std F) (hstd : StdLaws std) (samples : List Str)
    (vocab : List (ScoredToken F)) (hsize : vocab.length ≤ 4294967294)
    (hkeep : c.vocabSize < vocab.countP (·.keep)) (m' : Model F) :
    ¬ Pruner.Returns c std samples (Model.from_ vocab) m' := by
  rintro ⟨h1, h2⟩
  obtain ⟨w, rfl, h3⟩ := C48_run c std hstd samples vocab hsize m' h1
  have := prunedTo_count h3
  rw [Model.vocabSize, Model.from_vocab] at h2
  omega

namespace Pruner

theorem countIds_total : ∀ (ids : List Nat) (freqs : List Nat), (∀ i ∈ ids, i < freqs.length) →
    ∃ freqs', countIds ids freqs = .ok freqs' ∧ freqs'.length = freqs.length := by
  intro ids freqs h
  obtain ⟨f, h1, h2, _⟩ := countIds_ok ids freqs h
  exact ⟨f, h1, h2⟩

/-- The token frequencies of samples that can be encoded exist. -/
theorem frequencies_exist (vocab : List (ScoredToken F)) (rnd : Nat → F) (samples : List Str)
    (h : ∀ s ∈ samples, ∃ ids, (Model.from_ vocab).encode s zero rnd = .ok ids) :
    ∃ freqs, Frequencies (Model.from_ vocab) rnd samples freqs := by
  have hc : ∀ (chunk : List Str) (freqs : List Nat), (∀ s ∈ chunk, s ∈ samples) → freqs.length = vocab.length →
      ∃ f, countChunk (Model.from_ vocab) rnd chunk freqs = .ok f := by
    intro chunk
    induction chunk with
    | nil => intro freqs _ _; exact ⟨freqs, rfl⟩
    | cons s chunk ih =>
      intro freqs hs hl
      obtain ⟨ids, he⟩ := h s (hs s (List.mem_cons_self ..))
      obtain ⟨hids, _⟩ := C01_encode_lossless vocab s zero rnd ids he
      have hlt : ∀ i ∈ ids, i < freqs.length := fun i hi => by rw [hl]; exact hids i hi
      obtain ⟨f1, h2, h3⟩ := countIds_total ids freqs hlt
      obtain ⟨f, h4⟩ := ih f1 (fun x hx => hs x (List.mem_cons_of_mem _ hx)) (by omega)
      refine ⟨f, ?_⟩
      unfold countChunk
      rw [he]
      simp only
      rw [h2]
      simpa using h4
  obtain ⟨val, hv⟩ := parCount_exists (Worker := CountWorker (Model.from_ vocab) rnd) (fun _ => 0) 1 (by omega) samples (by
    intro chunk hch
    have hsub : ∀ s ∈ chunk, s ∈ samples := by
      intro s hs
      rw [← Parallel.chunks_flatten 1 (by omega) samples]
      exact List.mem_flatten.2 ⟨chunk, hch, hs⟩
    obtain ⟨f, hf⟩ := hc chunk (List.replicate (Model.from_ vocab).vocabSize 0) hsub (by
      rw [List.length_replicate, Model.vocabSize, Model.from_vocab])
    exact ⟨_, ⟨f, hf, rfl⟩, Parallel.safe_locked _⟩)
  exact ⟨_, val, hv, rfl⟩

theorem judgeAll_keep {numSamples numAlts : Nat} {freqs : List Nat} : ∀ (l : List ((ScoredToken F × Nat) × (Bool × List Nat)))
    (st : List (Nat × F) × List (ScoredToken F)), (∀ x ∈ l, x.1.1.keep = true) →
    judgeAll numSamples numAlts freqs l st = .ok (st.1, st.2 ++ l.map (·.1.1)) := by
  intro l
  induction l with
  | nil => intro st _; simp [judgeAll]
  | cons x l ih =>
    intro st h
    obtain ⟨⟨t, i⟩, a⟩ := x
    have hj : judge numSamples numAlts freqs i t a = .ok .keep := by
      unfold judge
      rw [if_pos (h _ (List.mem_cons_self ..))]
    rw [judgeAll, hj]
    simp only [res_bind_ok]
    rw [ih _ (fun y hy => h y (List.mem_cons_of_mem _ hy))]
    simp

/-- A vocabulary of protected tokens is only sorted. -/
theorem pruneVocab_keep {c : Pruner F} {std : Std F} (hstd : StdLaws std) (L : TrainLaws F) {vocab : List (ScoredToken F)}
    (hsize : vocab.length ≤ 4294967294) (hk : ∀ t ∈ vocab, t.keep = true) (hn : ∀ t ∈ vocab, TrainOps.isNan t.score = false)
    (rnd : Nat → F) (numSamples : Nat) (freqs : List Nat) :
    ∃ w fuel₀, (∀ fuel ≥ fuel₀, pruneVocab c std (Model.from_ vocab) rnd numSamples freqs fuel = .ok w) ∧ w.Perm vocab := by
  obtain ⟨ok, hheap⟩ := hstd.heap
  obtain ⟨alts, fuel₁, hseg, halts⟩ := segmentTokens_spec hheap hsize rnd vocab (VecPool.withCapacity 32) Lattice.new (.start 32)
  obtain ⟨w, hw, hp, _⟩ := sort_desc L.order hstd.vocab hn
  refine ⟨w, fuel₁, ?_, hp⟩
  intro fuel hf
  have hz : ∀ (v : List (ScoredToken F)) (as : List (Bool × List Nat)) (k : Nat), v.length = as.length →
      ((v.zipIdx k).zip as).map (·.1.1) = v := by
    intro v
    induction v with
    | nil => intro as k _; simp
    | cons t v ih =>
      intro as k hl
      cases as with
      | nil => simp at hl
      | cons a as => rw [List.zipIdx_cons, List.zip_cons_cons, List.map_cons, ih as _ (by simpa using hl)]
  have hmap := hz vocab alts 0 halts.length_eq
  rw [pruneVocab, Model.from_vocab, hseg fuel hf]
  simp only [res_bind_ok]
  rw [judgeAll_keep _ _ (by
    intro x hx
    apply hk
    rw [← hmap]
    exact List.mem_map.2 ⟨x, hx, rfl⟩), hmap]
  simp only [res_bind_ok, List.nil_append]
  have hs0 : sortUnwrap std.sortCandidates (fun a b => partialCmp b.2 a.2) ([] : List (Nat × F)) = .ok [] := by
    obtain ⟨l', h1, h2, _⟩ := sort_desc_key L.order hstd.candidates (fun x : Nat × F => x.2) (l := []) (by simp)
    rw [h1, h2.eq_nil]
  rw [hs0]
  simp only [res_bind_ok, takeCandidates]
  exact hw

end Pruner

/-- **C49** is false: a vocabulary of protected tokens, larger than requested, is pruned forever.  (Without EM iterations,
on any samples whose bytes are tokens; this run neither panics nor fails.) -/
theorem C49_false (L : TrainLaws F) (c : Pruner F) (std : Pruner.Std F) (hstd : StdLaws std) (hem : c.emSubiters = 0)
    (samples : List Str) (vocab : List (ScoredToken F)) (hsize : vocab.length ≤ 4294967294)
    (hkeep : ∀ t ∈ vocab, t.keep = true) (hnan : ∀ t ∈ vocab, TrainOps.isNan t.score = false)
    (hlarge : c.vocabSize < vocab.length) (hcov : ∀ s ∈ samples, BytesCovered vocab (enc s)) :
    ∃ run : Nat → Model F, run 0 = Model.from_ vocab ∧ ∀ i, Pruner.Pass c std samples (run i) (run (i + 1)) := by
  -- a state of the run: a permutation of the vocabulary
  have step : ∀ v : List (ScoredToken F), v.Perm vocab → ∃ w, w.Perm vocab ∧
      Pruner.Pass c std samples (Model.from_ v) (Model.from_ w) := by
    intro v hv
    have hlen := hv.length_eq
    obtain ⟨freqs, hf⟩ := Pruner.frequencies_exist v (fun _ => zero) samples (fun s hs =>
      C04_dropout_total v s zero _ (fun b hb => by
        obtain ⟨t, ht, h⟩ := hcov s hs b hb
        exact ⟨t, hv.symm.subset ht, h⟩))
    obtain ⟨w, fuel₀, hw, hp⟩ := Pruner.pruneVocab_keep (c := c) hstd L (vocab := v) (by omega)
      (fun t ht => hkeep t (hv.subset ht)) (fun t ht => hnan t (hv.subset ht)) (fun _ => zero) samples.length freqs
    refine ⟨w, hp.trans hv, ?_, Model.from_ v, ?_, _, freqs, w, fuel₀, hf, hw, rfl⟩
    · rw [Model.vocabSize, Model.from_vocab]; omega
    · rw [hem]; exact .zero _
  classical
  let next : {v : List (ScoredToken F) // v.Perm vocab} → {v : List (ScoredToken F) // v.Perm vocab} :=
    fun v => ⟨(step v.1 v.2).choose, (step v.1 v.2).choose_spec.1⟩
  refine ⟨fun i => Model.from_ (next^[i] ⟨vocab, .refl _⟩).1, rfl, ?_⟩
  intro i
  simp only [Function.iterate_succ_apply']
  exact (step _ (next^[i] ⟨vocab, .refl _⟩).2).choose_spec.2

/-- A run of `n` passes. -/
inductive Spec.PassesOf (step : Model F → Model F → Prop) : Nat → Model F → Model F → Prop where
  | zero (m : Model F) : PassesOf step 0 m m
  | succ {n : Nat} {m m₁ m₂ : Model F} : PassesOf step n m m₁ → step m₁ m₂ → PassesOf step (n + 1) m m₂

omit [TrainOps F] in
theorem Spec.PassesOf.reach {step : Model F → Model F → Prop} {n : Nat} {m m' : Model F} (h : PassesOf step n m m') :
    ReflTransGen step m m' := by
  induction h with
  | zero => exact .refl
  | succ _ h2 ih => exact ih.tail h2

open Classical in
/-- **C49** (partial) In exact arithmetic, if the shrink factor really shrinks every vocabulary that is too large, and if
no prune step ever meets a vocabulary with more forced tokens (protected, or not worth more than some other way of cutting
them) than it may keep, then every pass makes the vocabulary smaller: no run has more than `vocab.length - vocab_size`
passes, and one that ends by the loop's test leaves at most `vocab_size` tokens.  Without these hypotheses the claim is false
(`C49_false`).  That there is a run that ends is `C49_returns_partial`. -/
theorem C49_prune_partial (R : ExactArith F) (c : Pruner F) (std : Pruner.Std F) (hstd : StdLaws std)
    (ok : List (Hypo F) → Prop) (hheap : HeapLaws std.heap ok) (hmax : HeapMax std.heap ok) (samples : List Str)
    (vocab : List (ScoredToken F)) (hsize : vocab.length ≤ 4294967294)
    (hshrink : ∀ n, c.vocabSize < n → n ≤ vocab.length → c.shrink n < n)
    (hforced : ∀ m w, ReflTransGen (Pruner.Pass c std samples) (Model.from_ vocab) m →
      Pruner.EMSteps c samples c.emSubiters m (Model.from_ w) →
      WellFormed w ∧ w.countP (fun t => decide (Forced w t)) ≤ max (c.shrink w.length) c.vocabSize) :
    (∀ n m', PassesOf (Pruner.Pass c std samples) n (Model.from_ vocab) m' → n ≤ vocab.length - c.vocabSize) ∧
    (∀ m', Pruner.Returns c std samples (Model.from_ vocab) m' → m'.vocabSize ≤ c.vocabSize) := by
  have hdec : ∀ m m', ReflTransGen (Pruner.Pass c std samples) (Model.from_ vocab) m → Pruner.Pass c std samples m m' →
      c.vocabSize < m.vocabSize ∧ m'.vocabSize < m.vocabSize := by
    intro m m' hr hp
    obtain ⟨v, rfl, hv⟩ := C48_run c std hstd samples vocab hsize m hr
    obtain ⟨h1, m₁, h2, h3⟩ := hp
    obtain ⟨w₁, rfl, h4⟩ := Pruner.emSteps_prunedTo h2 v rfl
    obtain ⟨hwf, hf⟩ := hforced _ _ hr h2
    have hl1 := prunedTo_length hv
    have hl2 := prunedTo_length h4
    obtain ⟨rnd, freqs, w, fuel₀, _, hw, rfl⟩ := h3
    obtain ⟨ids, _, _, e1, e2, e3, _⟩ := Pruner.pruneVocab_exact R hstd hheap hmax (by omega) hwf hw
    have e4 := e3 hf
    rw [Model.vocabSize, Model.from_vocab] at h1
    rw [Model.vocabSize, Model.from_vocab, Model.vocabSize, Model.from_vocab]
    refine ⟨h1, ?_⟩
    by_cases hbig : c.vocabSize < w₁.length
    · have := hshrink w₁.length hbig (by omega)
      omega
    · have hle : w.length ≤ w₁.length := by
        rw [← entriesAt_length e2]
        exact nodup_length_le e1 (fun i hi => entriesAt_lt e2 hi)
      omega
  constructor
  · have count : ∀ n m m', PassesOf (Pruner.Pass c std samples) n m m' → m = Model.from_ vocab →
        n + m'.vocabSize ≤ vocab.length ∧ (0 < n → n ≤ vocab.length - c.vocabSize) := by
      intro n m m' h
      induction h with
      | zero =>
        intro e
        rw [e, Model.vocabSize, Model.from_vocab]
        omega
      | @succ n m m₁ m₂ h1 h2 ih =>
        intro e
        have h3 := h1.reach
        rw [e] at h3
        have := hdec _ _ h3 h2
        have := ih e
        omega
    intro n m' h
    have := count n _ m' h rfl
    omega
  · intro m' h
    exact Nat.le_of_not_lt h.2

end

/-! ### C65 -/

theorem real_train_laws : TrainLaws ℝ where
  order := {
    total := by
      intro a b _ _
      simp only [ScoreOps.le, decide_eq_true_eq]
      exact le_total a b
    trans := by
      intro a b c _ _ _
      simp only [ScoreOps.le, decide_eq_true_eq]
      exact le_trans
    lt_eq := by
      intro a b _ _
      simp only [ScoreOps.le, ScoreOps.lt]
      by_cases h : a < b
      · simp [h]
      · simp [h, not_lt.1 h] }
  normal := fun _ _ => rfl

theorem lossOf_real {numSamples n : Nat} {freqs : List Nat} {count : Nat → Nat} (hc : freqs = (List.range n).map count) {i : Nat}
    {alt : List Nat} {l : ℝ} (h : Pruner.lossOf numSamples n freqs i alt = .ok l) : l = pruneLoss numSamples n count i alt := by
  have hidx : ∀ {j v}, idx freqs j = .ok v → v = count j := by
    intro j v hv
    have := idx_ok hv
    rw [hc, List.getElem?_map] at this
    cases hr : (List.range n)[j]? with
    | none => rw [hr] at this; simp at this
    | some k =>
      rw [hr] at this
      simp only [Option.map_some, Option.some.injEq] at this
      rw [List.getElem?_eq_some_iff] at hr
      obtain ⟨_, hk⟩ := hr
      rw [List.getElem_range] at hk
      rw [← this, ← hk]
  unfold Pruner.lossOf at h
  obtain ⟨f, hf, h⟩ := bind_ok h
  simp only at h
  by_cases hn : n = 0
  · rw [if_pos hn] at h; simp at h
  · rw [if_neg hn] at h
    obtain ⟨s, hs, h⟩ := bind_ok h
    simp only [res_pure, Except.ok.injEq] at h
    have hfold : ∀ (alt : List Nat) (x s : ℝ) (g : ℝ) (k : ℝ), alt.foldlM (fun acc altId => do
        let c ← idx freqs altId
        pure (add acc (sub (ln (add (RealOps.ofNat c) g)) k))) x = (.ok s : Res ℝ) →
        s = x + (alt.map fun a => Real.log ((count a : ℝ) + g) - k).sum := by
      intro alt
      induction alt with
      | nil =>
        intro x s g k h
        simp only [List.foldlM_nil, res_pure, Except.ok.injEq] at h
        simp [h]
      | cons a alt ih =>
        intro x s g k h
        rw [List.foldlM_cons] at h
        obtain ⟨y, hy, h⟩ := bind_ok h
        obtain ⟨c, hca, hy⟩ := bind_ok hy
        simp only [res_pure, Except.ok.injEq] at hy
        rw [ih y s g k h, List.map_cons, List.sum_cons, ← hy, hidx hca]
        show x + (Real.log ((count a : ℝ) + g) - k) + _ = _
        ring
    have e := hfold _ _ _ _ _ hs
    rw [← h, e, hidx hf]
    have hsum : freqs.sum = ((List.range n).map count).sum := by rw [hc]
    unfold pruneLoss
    rw [hsum]
    show (count i : ℝ) / (numSamples : ℝ) * (Real.log (count i) - Real.log _ - (((0 : ℕ) : ℝ) + _)) = _
    rw [Nat.cast_zero, zero_add]
    rfl

/-- **C65** In exact arithmetic, on a well-formed vocabulary and a corpus that can be encoded, with `count` the number of
occurrences of every token in the encoded corpus: among the unprotected tokens that occur, prune removes those of least
loss.  The loss of a token is computed from a best other way `alt` of cutting its bytes; every removed token has one; if a
token that occurs is removed, exactly `max (shrink n) vocab_size` tokens are left, and no kept token that could be
replaced has a smaller loss.  An unprotected token that does not occur is removed exactly if its bytes can be cut in
another way. -/
theorem C65_least_loss (c : Pruner ℝ) (std : Pruner.Std ℝ) (hstd : StdLaws std) (ok : List (Hypo ℝ) → Prop)
    (hheap : HeapLaws std.heap ok) (hmax : HeapMax std.heap ok) (samples : List Str) (vocab : List (ScoredToken ℝ))
    (hsize : vocab.length ≤ 4294967294) (hwf : WellFormed vocab) (idss : List (List Nat))
    (hids : samples.mapM (fun s => (Model.from_ vocab).encode s 0 (fun _ => 0)) = .ok idss) (m' : Model ℝ)
    (h : Pruner.PruneStep c std samples (Model.from_ vocab) m') :
    ∃ w, ∃ ids, ∃ alt : Nat → List Nat, m' = Model.from_ w ∧ ids.Nodup ∧ EntriesAt vocab ids w ∧
      (∀ i t, vocab[i]? = some t → t.keep = true → i ∈ ids) ∧
      (∀ i t, vocab[i]? = some t → 0 < tokenCount idss i → i ∉ ids →
        BestAlternative vocab t.value (alt i) ∧ w.length = max (c.shrink vocab.length) c.vocabSize) ∧
      (∀ i t, vocab[i]? = some t → t.keep = false → 0 < tokenCount idss i → Replaceable vocab t →
        BestAlternative vocab t.value (alt i)) ∧
      (∀ i t j u, vocab[i]? = some t → 0 < tokenCount idss i → i ∉ ids →
        vocab[j]? = some u → 0 < tokenCount idss j → j ∈ ids → u.keep = false → Replaceable vocab u →
        pruneLoss samples.length vocab.length (tokenCount idss) i (alt i) ≤
          pruneLoss samples.length vocab.length (tokenCount idss) j (alt j)) ∧
      (∀ i t, vocab[i]? = some t → t.keep = false → tokenCount idss i = 0 →
        (i ∈ ids ↔ ¬ ∃ a, Resegments vocab t.value a)) := by
  obtain ⟨rnd, freqs, w, fuel₀, ⟨val, hval, hfr⟩, hw, rfl⟩ := h
  have hkeep := Pruner.pruneVocab_facts hstd hsize hw
  have hids' : samples.mapM (fun s => (Model.from_ vocab).encode s zero rnd) = .ok idss := by
    rw [← hids]
    congr 1
    funext s
    exact C06_deterministic vocab s _ _ _ (by simp [ScoreOps.le, ScoreOps.zero])
  have hcount : ∀ i, i < vocab.length → val i = tokenCount idss i := by
    intro i hi
    exact C50_tokens (Model.from_ vocab) rnd samples idss hids' val hval i (by rw [Model.vocabSize, Model.from_vocab]; exact hi)
  have hfreqs : freqs = (List.range vocab.length).map (tokenCount idss) := by
    rw [hfr, Model.vocabSize, Model.from_vocab]
    exact List.map_congr_left (fun i hi => hcount i (List.mem_range.1 hi))
  have hget : ∀ i t, vocab[i]? = some t → freqs[i]? = some (tokenCount idss i) := by
    intro i t ht
    have := (List.getElem?_eq_some_iff.1 ht).1
    rw [hfreqs, List.getElem?_map, List.getElem?_range this]
    rfl
  obtain ⟨ids, alt, loss, h1, h2, _, h4, h5, h6⟩ := Pruner.pruneVocab_exact realExact hstd hheap hmax hsize hwf hw
  have hk : ∀ i t, vocab[i]? = some t → t.keep = true → i ∈ ids := by
    obtain ⟨ids', n1, n2, n3, _, _⟩ := hkeep
    intro i t ht htk
    have hi := n3 i t ht htk
    -- the entries are the same, and there are no duplicates
    have hin : t ∈ w := entriesAt_mem n2 hi ht
    obtain ⟨k, hk⟩ := List.mem_iff_getElem?.1 hin
    have hkl : k < ids.length := by
      rw [entriesAt_length h2]
      exact (List.getElem?_eq_some_iff.1 hk).1
    have := entriesAt_get h2 (List.getElem?_eq_getElem hkl)
    rw [hk] at this
    have heq : ids[k] = i := by
      obtain ⟨l1, e1⟩ := List.getElem?_eq_some_iff.1 this
      obtain ⟨l2, e2⟩ := List.getElem?_eq_some_iff.1 ht
      refine (List.Nodup.getElem_inj_iff hwf.nodup (hi := by simpa using l1) (hj := by simpa using l2)).1 ?_
      simp only [List.getElem_map, e1, e2]
    rw [← heq]
    exact List.getElem_mem hkl
  have hnk : ∀ i t, vocab[i]? = some t → i ∉ ids → t.keep = false := by
    intro i t ht hn
    cases hb : t.keep with
    | false => rfl
    | true => exact absurd (hk i t ht hb) hn
  refine ⟨w, ids, alt, rfl, h1, h2, hk, ?_, ?_, ?_, ?_⟩
  · intro i t ht hc hn
    obtain ⟨q1, _, q3⟩ := h4 i t _ ht (hget i t ht) (by omega) (hnk i t ht hn) (Or.inl hn)
    exact ⟨q1, q3 hn⟩
  · intro i t ht hkt hc hr
    exact (h4 i t _ ht (hget i t ht) (by omega) hkt (Or.inr hr)).1
  · intro i t j u ht hc hn hu hcu hj hku hr
    obtain ⟨_, q2, _⟩ := h4 i t _ ht (hget i t ht) (by omega) (hnk i t ht hn) (Or.inl hn)
    obtain ⟨_, q5, _⟩ := h4 j u _ hu (hget j u hu) (by omega) hku (Or.inr hr)
    have := h5 real_train_laws i t _ j u _ ht (hget i t ht) (by omega) hn hu (hget j u hu) (by omega) hj hku hr
    rw [lossOf_real hfreqs q2, lossOf_real hfreqs q5, exact_lt_false realExact] at this
    exact this
  · intro i t ht hkt hc
    have := hget i t ht
    rw [hc] at this
    exact h6 i t ht this hkt

/-! ### C66 -/

namespace Pruner
section
variable {F : Type} [TrainOps F]

theorem judgeAll_total {numSamples numAlts : Nat} {freqs : List Nat} : ∀ (l : List ((ScoredToken F × Nat) × (Bool × List Nat)))
    (st : List (Nat × F) × List (ScoredToken F)), (∀ x ∈ l, ∃ v, judge numSamples numAlts freqs x.1.2 x.1.1 x.2 = .ok v) →
    ∃ st', judgeAll numSamples numAlts freqs l st = .ok st' := by
  intro l
  induction l with
  | nil => intro st _; exact ⟨st, rfl⟩
  | cons x l ih =>
    intro st h
    obtain ⟨⟨t, i⟩, a⟩ := x
    obtain ⟨v, hv⟩ := h _ (List.mem_cons_self ..)
    simp only at hv
    have ih' := fun st => ih st (fun y hy => h y (List.mem_cons_of_mem _ hy))
    rw [judgeAll, hv]
    simp only [res_bind_ok]
    cases v <;> exact ih' _

omit [TrainOps F] in
theorem takeCandidates_total {vocab : List (ScoredToken F)} {size : Nat} : ∀ (cands : List (Nat × F))
    (pruned : List (ScoredToken F)), (∀ x ∈ cands, x.1 < vocab.length) →
    ∃ w, takeCandidates vocab size cands pruned = .ok w := by
  intro cands
  induction cands with
  | nil => intro pruned _; exact ⟨pruned, rfl⟩
  | cons x cands ih =>
    intro pruned h
    rw [takeCandidates]
    by_cases hs : pruned.length = size
    · rw [if_pos hs]; exact ⟨_, rfl⟩
    · rw [if_neg hs, idx_of_lt (h x (List.mem_cons_self ..))]
      exact ih _ (fun y hy => h y (List.mem_cons_of_mem _ hy))

/-- A prune step returns unless the loss of a token is not normal. -/
theorem pruneVocab_total_of (L : TrainLaws F) {c : Pruner F} {std : Std F} (hstd : StdLaws std)
    {vocab : List (ScoredToken F)} (hn : ∀ t ∈ vocab, TrainOps.isNan t.score = false) {rnd : Nat → F} {numSamples : Nat}
    {freqs : List Nat} {P : ScoredToken F → Bool × List Nat → Prop} {alts : List (Bool × List Nat)} {fuel₁ : Nat}
    (hseg : ∀ fuel ≥ fuel₁, segmentTokens std.heap (Model.from_ vocab) rnd fuel vocab (Lattice.new, VecPool.withCapacity 32) = .ok alts)
    (halts : List.Forall₂ P vocab alts)
    (hj : ∀ i t a, vocab[i]? = some t → P t a → ∃ v, judge numSamples vocab.length freqs i t a = .ok v) :
    ∃ w fuel₀, ∀ fuel ≥ fuel₀, pruneVocab c std (Model.from_ vocab) rnd numSamples freqs fuel = .ok w := by
  have hlen : vocab.length = alts.length := halts.length_eq
  obtain ⟨st, hst⟩ := judgeAll_total (numSamples := numSamples) (numAlts := vocab.length) (freqs := freqs)
    (vocab.zipIdx.zip alts) ([], []) (by
      rintro ⟨⟨t, i⟩, a⟩ hx
      obtain ⟨k, hk⟩ := List.mem_iff_getElem?.1 hx
      rw [List.getElem?_zip_eq_some] at hk
      obtain ⟨hk1, hk2⟩ := hk
      rw [List.getElem?_zipIdx] at hk1
      cases hv : vocab[k]? with
      | none => rw [hv] at hk1; simp at hk1
      | some t' =>
        rw [hv] at hk1
        simp only [Option.map_some, Option.some.injEq, Prod.mk.injEq, Nat.zero_add] at hk1
        obtain ⟨rfl, rfl⟩ := hk1
        exact hj k t' a hv (forall₂_get halts hv hk2))
  obtain ⟨vs, kept, e1, e2, e3, e4, e5⟩ := judgeAll_spec vocab alts 0 ([], []) st hlen hst
  simp only [List.nil_append] at e3 e4
  simp only [Nat.sub_zero] at e5
  have hcand : ∀ x ∈ candIds 0 vs, x.1 < vocab.length ∧ TrainOps.isNan x.2 = false := by
    rintro ⟨i, l⟩ hx
    rw [mem_candIds] at hx
    simp only [Nat.zero_le, true_and, Nat.sub_zero] at hx
    have hlt := (List.getElem?_eq_some_iff.1 hx).1
    rw [e1] at hlt
    refine ⟨hlt, ?_⟩
    have hjj := e2 i _ _ _ (List.getElem?_eq_getElem hlt) (List.getElem?_eq_getElem (by omega)) hx
    rcases judge_cases hjj with ⟨_, q⟩ | ⟨_, _, _, q | q | q | q⟩
    · simp at q
    · simp at q
    · simp at q
    · obtain ⟨_, _, l', _, q4, q5⟩ := q
      simp only [Verdict.candidate.injEq] at q5
      subst q5
      exact L.normal _ q4
    · simp at q
  obtain ⟨cands, hc, hcp, _⟩ := sort_desc_key L.order hstd.candidates (fun x : Nat × F => x.2) (l := st.1)
    (by rw [e3]; exact fun x hx => (hcand x hx).2)
  obtain ⟨pruned, hpr⟩ := takeCandidates_total (vocab := vocab) (size := max (c.shrink vocab.length) c.vocabSize) cands st.2 (by
    intro x hx
    have := hcp.subset hx
    rw [e3] at this
    exact (hcand x this).1)
  obtain ⟨taken, rest, ws, f1, f2, f3, _⟩ := takeCandidates_spec cands st.2 pruned hpr
  have hg : ∀ t ∈ pruned, TrainOps.isNan t.score = false := by
    intro t ht
    rw [f2, e4] at ht
    rcases List.mem_append.1 ht with ht | ht
    · have : some t ∈ kept.map some := List.mem_map_of_mem ht
      rw [← e5] at this
      obtain ⟨i, _, hi⟩ := List.mem_map.1 this
      exact hn t (List.mem_of_getElem? hi)
    · exact hn t (entriesAt_sub f3 ht)
  obtain ⟨w, hw, _⟩ := sort_desc L.order hstd.vocab hg
  refine ⟨w, fuel₁, ?_⟩
  intro fuel hf
  rw [pruneVocab, Model.from_vocab, hseg fuel hf]
  simp only [res_bind_ok]
  rw [← hlen, hst]
  simp only [res_bind_ok]
  rw [hc]
  simp only [res_bind_ok]
  rw [Model.vocabSize, Model.from_vocab, hpr]
  exact hw

theorem pruneVocab_total (R : ExactArith F) (L : TrainLaws F) {c : Pruner F} {std : Std F} (hstd : StdLaws std)
    {ok : List (Hypo F) → Prop} (hheap : HeapLaws std.heap ok) (hmax : HeapMax std.heap ok)
    {vocab : List (ScoredToken F)} (hsize : vocab.length ≤ 4294967294) (hwf : WellFormed vocab)
    (hn : ∀ t ∈ vocab, TrainOps.isNan t.score = false) {rnd : Nat → F} {numSamples : Nat} {freqs : List Nat}
    (hj : ∀ i t a, vocab[i]? = some t → ExactAlt vocab t a → ∃ v, judge numSamples vocab.length freqs i t a = .ok v) :
    ∃ w fuel₀, ∀ fuel ≥ fuel₀, pruneVocab c std (Model.from_ vocab) rnd numSamples freqs fuel = .ok w := by
  obtain ⟨alts, fuel₁, hseg, halts⟩ := segmentTokens_exact R hheap hmax hsize hwf rnd vocab (fun t ht => ht)
    (VecPool.withCapacity 32) Lattice.new (.start 32)
  exact pruneVocab_total_of L hstd hn hseg halts hj

end
end Pruner

/-- **C66** (no panic) In exact arithmetic, on a well-formed vocabulary and a corpus that can be encoded, a prune step neither
panics nor fails nor loops, whatever its random numbers and the division of the work, unless the loss of some unprotected token
that occurs is exactly 0. -/
theorem C66_no_panic (c : Pruner ℝ) (std : Pruner.Std ℝ) (hstd : StdLaws std) (ok : List (Hypo ℝ) → Prop)
    (hheap : HeapLaws std.heap ok) (hmax : HeapMax std.heap ok) (samples : List Str) (vocab : List (ScoredToken ℝ))
    (hsize : vocab.length ≤ 4294967294) (hwf : WellFormed vocab) (idss : List (List Nat))
    (hids : samples.mapM (fun s => (Model.from_ vocab).encode s 0 (fun _ => 0)) = .ok idss)
    (hloss : ∀ i t alt, vocab[i]? = some t → t.keep = false → 0 < tokenCount idss i → BestAlternative vocab t.value alt →
      pruneLoss samples.length vocab.length (tokenCount idss) i alt ≠ 0)
    (rnd : Nat → ℝ) (freqs : List Nat) (hfr : Pruner.Frequencies (Model.from_ vocab) rnd samples freqs) :
    ∃ w fuel₀, ∀ fuel ≥ fuel₀, Pruner.pruneVocab c std (Model.from_ vocab) rnd samples.length freqs fuel = .ok w := by
  have hids' : samples.mapM (fun s => (Model.from_ vocab).encode s zero rnd) = .ok idss := by
    rw [← hids]
    congr 1
    funext s
    exact C06_deterministic vocab s _ _ _ (by simp [ScoreOps.le, ScoreOps.zero])
  obtain ⟨val, hval, hfv⟩ := id hfr
  have hfreqs : freqs = (List.range vocab.length).map (tokenCount idss) := by
    rw [hfv, Model.vocabSize, Model.from_vocab]
    refine List.map_congr_left (fun i hi => ?_)
    exact C50_tokens (Model.from_ vocab) _ samples idss hids' val hval i
      (by rw [Model.vocabSize, Model.from_vocab]; exact List.mem_range.1 hi)
  have hfl : freqs.length = vocab.length := by rw [hfreqs]; simp
  obtain ⟨w, fuel₀, hw⟩ := Pruner.pruneVocab_total (c := c) realExact real_train_laws hstd hheap hmax hsize hwf
    (fun _ _ => rfl) (rnd := rnd) (numSamples := samples.length) (freqs := freqs) (by
      intro i t a ht hex
      have hi := (List.getElem?_eq_some_iff.1 ht).1
      have hfi : idx freqs i = .ok (tokenCount idss i) := by
        rw [idx_of_lt (by omega)]
        congr 1
        simp [hfreqs]
      unfold Pruner.judge
      by_cases hk : t.keep = true
      · rw [if_pos hk]; exact ⟨_, rfl⟩
      · rw [if_neg hk, hfi]
        simp only [res_bind_ok]
        by_cases h1 : (decide (tokenCount idss i = 0) && !a.1) = true
        · rw [if_pos h1]; exact ⟨_, rfl⟩
        · rw [if_neg h1]
          by_cases h2 : a.2.isEmpty = true
          · rw [if_pos h2]; exact ⟨_, rfl⟩
          · rw [if_neg h2]
            by_cases h3 : tokenCount idss i ≠ 0
            · rw [if_pos h3]
              have hbest : BestAlternative vocab t.value a.2 := by
                rcases hex with ⟨_, x2, _⟩ | ⟨_, x2, _⟩ | ⟨_, x2, _⟩
                · rw [x2] at h2; simp at h2
                · exact x2
                · rw [x2] at h2; simp at h2
              -- the loss can be computed
              have hl : ∃ l, Pruner.lossOf (F := ℝ) samples.length vocab.length freqs i a.2 = .ok l := by
                unfold Pruner.lossOf
                rw [hfi]
                simp only [res_bind_ok]
                rw [if_neg (by omega)]
                have hin : ∀ j ∈ a.2, j < freqs.length := by
                  intro j hj
                  obtain ⟨_, ⟨toks, e, _⟩, _⟩ := hbest.1
                  have : (fun j => vocab[j]?) j ∈ a.2.map (fun j => vocab[j]?) := List.mem_map_of_mem hj
                  rw [e] at this
                  obtain ⟨u, _, hu⟩ := List.mem_map.1 this
                  rw [hfl]
                  exact (List.getElem?_eq_some_iff.1 hu.symm).1
                have hfold : ∀ (alt : List Nat) (x : ℝ) (g k : ℝ), (∀ j ∈ alt, j < freqs.length) →
                    ∃ s, alt.foldlM (fun acc altId => do
                      let c ← idx freqs altId
                      pure (add acc (sub (ln (add (RealOps.ofNat c) g)) k))) x = (.ok s : Res ℝ) := by
                  intro alt
                  induction alt with
                  | nil => intro x g k _; exact ⟨x, rfl⟩
                  | cons j alt ih =>
                    intro x g k h
                    rw [List.foldlM_cons, idx_of_lt (h j (List.mem_cons_self ..))]
                    exact ih _ g k (fun y hy => h y (List.mem_cons_of_mem _ hy))
                obtain ⟨s, hs⟩ := hfold a.2 (RealOps.ofNat 0) (RealOps.ofNat (tokenCount idss i))
                  (ln (add (RealOps.ofNat freqs.sum) (mul (RealOps.ofNat (tokenCount idss i)) (RealOps.ofNat (vocab.length - 1))))) hin
                rw [hs]
                exact ⟨_, rfl⟩
              obtain ⟨l, hl⟩ := hl
              rw [hl]
              simp only [res_bind_ok]
              have hne : l ≠ 0 := by
                rw [lossOf_real hfreqs hl]
                exact hloss i t a.2 ht (by simpa using hk) (by omega) hbest
              have : TrainOps.isNormal l = true := by simp [TrainOps.isNormal, hne]
              rw [this]
              exact ⟨_, rfl⟩
            · rw [if_neg h3]; exact ⟨_, rfl⟩)
  exact ⟨w, fuel₀, hw⟩

/-- **C66** In exact arithmetic, on a well-formed vocabulary and a corpus that can be encoded, a prune step returns,
neither panicking nor failing nor looping, unless the loss of some unprotected token that occurs is exactly 0. -/
theorem C66_prune_returns (c : Pruner ℝ) (std : Pruner.Std ℝ) (hstd : StdLaws std) (ok : List (Hypo ℝ) → Prop)
    (hheap : HeapLaws std.heap ok) (hmax : HeapMax std.heap ok) (samples : List Str) (vocab : List (ScoredToken ℝ))
    (hsize : vocab.length ≤ 4294967294) (hwf : WellFormed vocab) (idss : List (List Nat))
    (hids : samples.mapM (fun s => (Model.from_ vocab).encode s 0 (fun _ => 0)) = .ok idss)
    (hloss : ∀ i t alt, vocab[i]? = some t → t.keep = false → 0 < tokenCount idss i → BestAlternative vocab t.value alt →
      pruneLoss samples.length vocab.length (tokenCount idss) i alt ≠ 0) :
    ∃ m', Pruner.PruneStep c std samples (Model.from_ vocab) m' := by
  have henc : ∀ (samples : List Str) (idss : List (List Nat)),
      samples.mapM (fun s => (Model.from_ vocab).encode s (0 : ℝ) (fun _ => 0)) = .ok idss →
      ∀ s ∈ samples, ∃ ids, (Model.from_ vocab).encode s (0 : ℝ) (fun _ => 0) = .ok ids := by
    intro samples
    induction samples with
    | nil => intro _ _ s hs; simp at hs
    | cons x samples ih =>
      intro idss h s hs
      rw [List.mapM_cons] at h
      obtain ⟨ids, h1, h⟩ := bind_ok h
      obtain ⟨idss', h2, _⟩ := bind_ok h
      rcases List.mem_cons.1 hs with rfl | hs
      · exact ⟨ids, h1⟩
      · exact ih idss' h2 s hs
  obtain ⟨freqs, hfr⟩ := Pruner.frequencies_exist vocab (fun _ => (0 : ℝ)) samples (henc samples idss hids)
  obtain ⟨w, fuel₀, hw⟩ := C66_no_panic c std hstd ok hheap hmax samples vocab hsize hwf idss hids hloss _ freqs hfr
  exact ⟨Model.from_ w, _, freqs, w, fuel₀, hfr, hw, rfl⟩

/-! ### Non-vacuity -/

/-- Takes the first largest element out of a list. -/
def takeMax {F : Type} [ScoreOps F] (h : Hypo F) : List (Hypo F) → Hypo F × List (Hypo F)
  | [] => (h, [])
  | x :: t =>
    if lt h.fx x.fx then
      let r := takeMax x t
      (r.1, h :: r.2)
    else
      let r := takeMax h t
      (r.1, x :: r.2)

/-- A queue kept as a list. -/
def listHeap (F : Type) [ScoreOps F] : Heap F where
  push l h := h :: l
  pop l := match l with
    | [] => none
    | h :: t => some (takeMax h t)

theorem takeMax_perm {F : Type} [ScoreOps F] : ∀ (t : List (Hypo F)) (h : Hypo F),
    (h :: t).Perm ((takeMax h t).1 :: (takeMax h t).2) := by
  intro t
  induction t with
  | nil => intro h; exact .refl _
  | cons x t ih =>
    intro h
    rw [takeMax]
    by_cases hc : lt h.fx x.fx = true
    · rw [if_pos hc]
      exact ((ih x).cons h).trans (List.Perm.swap _ _ _)
    · rw [if_neg hc]
      exact (List.Perm.swap _ _ _).trans (((ih h).cons x).trans (List.Perm.swap _ _ _))

theorem listHeap_laws {F : Type} [ScoreOps F] : HeapLaws (listHeap F) (fun _ => True) := by
  refine ⟨trivial, fun _ => ⟨trivial, .refl _⟩, ?_, ?_⟩
  · intro l _ h
    cases l with
    | nil => rfl
    | cons x l => simp [listHeap] at h
  · intro l h l' _ hp
    cases l with
    | nil => simp [listHeap] at hp
    | cons x l =>
      simp only [listHeap, Option.some.injEq] at hp
      have := takeMax_perm l x
      rw [hp] at this
      exact ⟨trivial, this⟩

theorem listHeap_max {F : Type} [ScoreOps F] (R : ExactArith F) : HeapMax (listHeap F) (fun _ => True) := by
  have key : ∀ (t : List (Hypo F)) (h : Hypo F), ∀ x ∈ h :: t, R.val x.fx ≤ R.val (takeMax h t).1.fx := by
    intro t
    induction t with
    | nil => intro h x hx; rw [List.mem_singleton.1 hx]; exact le_rfl
    | cons y t ih =>
      intro h x hx
      rw [takeMax]
      by_cases hc : lt h.fx y.fx = true
      · rw [if_pos hc]
        have hlt := (R.lt _ _).1 hc
        have hy := ih y y (List.mem_cons_self ..)
        rcases List.mem_cons.1 hx with rfl | hx
        · exact le_trans (le_of_lt hlt) hy
        · exact ih y x hx
      · rw [if_neg hc]
        have hle := (exact_lt_false R _ _).1 (by simpa using hc)
        have hh := ih h h (List.mem_cons_self ..)
        rcases List.mem_cons.1 hx with rfl | hx
        · exact hh
        · rcases List.mem_cons.1 hx with rfl | hx
          · exact le_trans hle hh
          · exact ih h x (List.mem_cons_of_mem _ hx)
  intro l h l' _ hp x hx
  cases l with
  | nil => simp at hx
  | cons y l =>
    simp only [listHeap, Option.some.injEq] at hp
    have := key l y x hx
    rw [hp] at this
    exact (exact_lt_false R _ _).2 this

/-- A standard library made of lists. -/
def listStd (F : Type) [ScoreOps F] : Pruner.Std F := ⟨listHeap F, insertSorter _, insertSorter _⟩

theorem listStd_laws {F : Type} [ScoreOps F] : StdLaws (listStd F) :=
  ⟨⟨_, listHeap_laws⟩, insertSorter_laws _, insertSorter_laws _⟩

/-- Integers with made-up functions: the theorems above that hold for any number type apply to them. -/
@[instance_reducible] def toyOps : TrainOps Int where
  sub := (· - ·)
  mul := (· * ·)
  div a _ := a
  exp x := x
  ln x := x
  ofNat n := n
  isNormal x := x != 0
  isNan _ := false
  isInfinite _ := false
  max := max

section
attribute [local instance] toyOps

theorem toy_laws : TrainLaws Int where
  order := {
    total := by intro a b _ _; simp [ScoreOps.le]; omega
    trans := by intro a b c _ _ _; simp [ScoreOps.le]; omega
    lt_eq := by
      intro a b _ _
      simp only [ScoreOps.le, ScoreOps.lt]
      by_cases h : a < b
      · simp [h]
      · simp [h]; omega }
  normal := fun _ _ => rfl

/-- `a`, `b` protected; `ab`, `ba`, `aba`. -/
def pruneVocabulary : List (ScoredToken Int) :=
  [⟨[97], -3, true⟩, ⟨[98], -3, true⟩, ⟨[97, 98], -2, false⟩, ⟨[98, 97], -1, false⟩, ⟨[97, 98, 97], -3, false⟩]

def toyPruner : Pruner Int := { vocabSize := 3, shrink := fun n => n / 2, emSubiters := 1, dropout := 0 }

/-- `ab` stays, its loss is the largest; `ba` goes although it occurs; `aba` does not occur and goes. -/
theorem toy_prune (fuel : Nat) : toyPruner.pruneVocab (listStd Int) (Model.from_ pruneVocabulary) (fun _ => 0) 8 [2, 2, 3, 1, 0]
    (fuel + 10) = .ok [⟨[97, 98], -2, false⟩, ⟨[97], -3, true⟩, ⟨[98], -3, true⟩] := by rfl

def toySamples : List Str := [['a'], ['a'], ['b'], ['b'], ['a', 'b'], ['a', 'b'], ['a', 'b'], ['b', 'a']]

/-- A prune step from 5 tokens to 3: the hypotheses of C48 and C64 are met. -/
theorem toy_step : Pruner.PruneStep toyPruner (listStd Int) toySamples (Model.from_ pruneVocabulary)
    (Model.from_ [⟨[97, 98], -2, false⟩, ⟨[97], -3, true⟩, ⟨[98], -3, true⟩]) := by
  have hids : toySamples.mapM (fun s => (Model.from_ pruneVocabulary).encode s ScoreOps.zero (fun _ => 0)) =
      .ok [[0], [0], [1], [1], [2], [2], [2], [3]] := by rfl
  obtain ⟨freqs, hf⟩ := Pruner.frequencies_exist pruneVocabulary (fun _ => 0) toySamples (by
    intro s _
    exact C04_dropout_total _ s _ _ (by
      simp only [toySamples, List.mem_cons, List.not_mem_nil, or_false] at *
      rename_i hs
      unfold BytesCovered
      rcases hs with rfl | rfl | rfl | rfl | rfl | rfl | rfl | rfl <;> decide))
  obtain ⟨val, hv, rfl⟩ := id hf
  have hval : (List.range (Model.from_ pruneVocabulary).vocabSize).map val = [2, 2, 3, 1, 0] := by
    have h5 : (Model.from_ pruneVocabulary).vocabSize = 5 := by decide
    rw [h5]
    have := fun i hi => C50_tokens (Model.from_ pruneVocabulary) (fun _ => 0) toySamples _ hids val hv i (by rw [h5]; exact hi)
    simp only [List.range, List.range.loop, List.map_cons, List.map_nil]
    rw [this 0 (by omega), this 1 (by omega), this 2 (by omega), this 3 (by omega), this 4 (by omega)]
    decide
  refine ⟨fun _ => 0, _, _, 10, hf, ?_, rfl⟩
  intro fuel hfu
  obtain ⟨f, rfl⟩ : ∃ f, fuel = f + 10 := ⟨fuel - 10, by omega⟩
  rw [hval]
  exact toy_prune f

example : ∀ s : Str, Segmentable pruneVocabulary (enc s) →
    ∃ ids, (Model.from_ [(⟨[97, 98], -2, false⟩ : ScoredToken Int), ⟨[97], -3, true⟩, ⟨[98], -3, true⟩]).encode s 0 (fun _ => 0) = .ok ids := by
  intro s hs
  obtain ⟨ids, h⟩ := (C03_encode_complete pruneVocabulary s 0 (fun _ => 0) (by decide)).1.2 hs
  exact (C64_prune_encodable _ _ listStd_laws _ _ (by decide) _ toy_step).2 s 0 _ _ ids (by decide) h

/-- The hypotheses of C49_false are met: two protected tokens, one requested. -/
example : ∃ run : Nat → Model Int, run 0 = Model.from_ [⟨[97], -3, true⟩, ⟨[98], -3, true⟩] ∧
    ∀ i, Pruner.Pass ({ vocabSize := 1, shrink := fun n => n / 2, emSubiters := 0, dropout := 0 } : Pruner Int) (listStd Int) [['a', 'b']]
      (run i) (run (i + 1)) :=
  C49_false toy_laws _ _ listStd_laws rfl _ _ (by decide) (by decide) (by decide) (by decide) (by
    intro s hs
    rw [List.mem_singleton.1 hs]
    unfold BytesCovered
    decide)

example (m' : Model Int) : ¬ Pruner.Returns ({ vocabSize := 1, shrink := fun n => n / 2, emSubiters := 2, dropout := 0 } : Pruner Int)
    (listStd Int) toySamples (Model.from_ pruneVocabulary) m' :=
  C49_never _ _ listStd_laws _ _ (by decide) (by decide) m'

/-- `a`, `b` protected; `ab`. -/
def smallVocab : List (ScoredToken Int) := [⟨[97], -3, true⟩, ⟨[98], -3, true⟩, ⟨[97, 98], -2, false⟩]

def smallPruner : Pruner Int := { vocabSize := 2, shrink := fun n => n / 2, emSubiters := 0, dropout := 0 }

/-- All ways of cutting `ab` into tokens of one byte score -6. -/
theorem small_alt {w : List (ScoredToken Int)} (hw : ∀ t ∈ w, t ∈ smallVocab) {alt : List Nat}
    (h : Resegments w [97, 98] alt) : totalScore w alt = -6 := by
  obtain ⟨h1, h2, h3⟩ := h
  have one : ∀ i t, w[i]? = some t → t.value.length = 1 → scoreOf w i = -3 := by
    intro i t ht hl
    rw [scoreOf_some ht]
    have := hw t (List.mem_of_getElem? ht)
    simp only [smallVocab, List.mem_cons, List.not_mem_nil, or_false] at this
    rcases this with rfl | rfl | rfl
    · rfl
    · rfl
    · simp at hl
  have pos : ∀ i ∈ alt, ∀ t, w[i]? = some t → 0 < t.value.length := by
    intro i hi t ht
    obtain ⟨v, hv, ⟨t', ht', e⟩, _⟩ := h3 i hi
    rw [ht] at ht'
    simp only [Option.some.injEq] at ht'
    rw [ht', e]
    exact List.length_pos_iff.2 hv
  match alt, h1 with
  | i :: j :: rest, _ =>
    obtain ⟨t, r, ht, h4, e1⟩ := spells_cons.1 h2
    obtain ⟨u, r', hu, h5, e2⟩ := spells_cons.1 h4
    have p1 := pos i (by simp) t ht
    have p2 := pos j (by simp) u hu
    have l1 := congrArg List.length e1
    have l2 := congrArg List.length e2
    rw [List.length_append] at l1 l2
    simp only [List.length_cons, List.length_nil] at l1
    have hr' : r' = [] := List.eq_nil_of_length_eq_zero (by omega)
    have hrest : rest = [] := by
      cases rest with
      | nil => rfl
      | cons k rest =>
        obtain ⟨x, r'', hx, _, e3⟩ := spells_cons.1 h5
        have p3 := pos k (by simp) x hx
        have l3 := congrArg List.length e3
        rw [hr', List.length_append] at l3
        simp only [List.length_nil] at l3
        omega
    subst hrest
    simp [totalScore, one i t ht (by omega), one j u hu (by omega), ScoreOps.add, ScoreOps.zero]

/-- The hypotheses of C49_prune_partial are met: pruning `a`, `b`, `ab` to two tokens ends after at most one pass. -/
example (samples : List Str) : ∀ n m', PassesOf (Pruner.Pass smallPruner (listStd Int) samples) n (Model.from_ smallVocab) m' →
    n ≤ 1 := by
  classical
  have hreach : ∀ m, ReflTransGen (Pruner.Pass smallPruner (listStd Int) samples) (Model.from_ smallVocab) m →
      ∃ w, m = Model.from_ w ∧ (NoDuplicates w ∧ ∀ t ∈ w, t ∈ smallVocab) ∧ ∀ t ∈ smallVocab, t.keep = true → t ∈ w := by
    intro m h
    induction h with
    | refl => exact ⟨_, rfl, ⟨by unfold NoDuplicates; decide, fun t ht => ht⟩, fun t ht _ => ht⟩
    | @tail m₁ m₂ _ h2 ih =>
      obtain ⟨w₁, rfl, h3, h4⟩ := ih
      obtain ⟨_, m₁, h5, h6⟩ := h2
      cases h5
      obtain ⟨w, ids, rfl, h7, h8, h9, _⟩ := C48_prune_step _ _ listStd_laws _ w₁ (by
        have := (List.subperm_of_subset (List.Nodup.of_map _ h3.1) h3.2).length_le
        simp only [smallVocab, List.length_cons, List.length_nil] at this
        omega) _ h6
      refine ⟨w, rfl, ⟨?_, fun t ht => h3.2 t (entriesAt_sub h8 ht)⟩, ?_⟩
      · have h10 : w.map (·.value) = ids.map (fun i => ((w₁[i]?).map (·.value)).getD []) := by
          have := congrArg (List.map fun x : Option (ScoredToken Int) => (x.map (·.value)).getD []) h8
          simpa [Function.comp_def] using this.symm
        unfold NoDuplicates
        rw [h10]
        refine List.Nodup.map_on ?_ h7
        intro i hi j hj e
        have li := entriesAt_lt h8 hi
        have lj := entriesAt_lt h8 hj
        rw [List.getElem?_eq_getElem li, List.getElem?_eq_getElem lj] at e
        refine (List.Nodup.getElem_inj_iff h3.1 (hi := by simpa using li) (hj := by simpa using lj)).1 ?_
        simpa using e
      · intro t ht hk
        obtain ⟨i, hi⟩ := List.mem_iff_getElem?.1 (h4 t ht hk)
        exact entriesAt_mem h8 (h9 i t hi hk) hi
  have main := (C49_prune_partial intExact smallPruner (listStd Int) listStd_laws _ listHeap_laws (listHeap_max intExact) samples
    smallVocab (by decide) (by
      intro n h1 _
      simp only [smallPruner] at h1 ⊢
      omega) (by
      intro m w hm hem
      cases hem
      obtain ⟨w', e, h3, h4⟩ := hreach _ hm
      have : w = w' := by
        have := congrArg Model.vocab e
        rwa [Model.from_vocab, Model.from_vocab] at this
      subst this
      have hsub : ∀ t ∈ w, t ∈ smallVocab := h3.2
      have ha : (⟨[97], -3, true⟩ : ScoredToken Int) ∈ w := h4 _ (by decide) rfl
      have hb : (⟨[98], -3, true⟩ : ScoredToken Int) ∈ w := h4 _ (by decide) rfl
      have hnd : NoDuplicates w := h3.1
      have hwf : WellFormed w := by
        refine ⟨hnd, fun t ht => ?_, fun t ht => ?_⟩
        · exact (by decide : ∀ t ∈ smallVocab, t.value ≠ []) t (hsub t ht)
        · have := hsub t ht
          intro b hbt
          have hall : ∀ t ∈ smallVocab, ∀ b ∈ t.value, b = 97 ∨ b = 98 := by decide
          rcases hall t this b hbt with rfl | rfl
          · exact ⟨_, ha, rfl⟩
          · exact ⟨_, hb, rfl⟩
      refine ⟨hwf, ?_⟩
      have hlen := (List.subperm_of_subset (List.Nodup.of_map _ h3.1) h3.2).length_le
      show _ ≤ max _ 2
      by_cases hab : (⟨[97, 98], -2, false⟩ : ScoredToken Int) ∈ w
      · have hnf : ¬ Forced w ⟨[97, 98], -2, false⟩ := by
          rintro (hk | hr)
          · simp at hk
          · apply hr
            obtain ⟨i, hi⟩ := List.mem_iff_getElem?.1 ha
            obtain ⟨j, hj⟩ := List.mem_iff_getElem?.1 hb
            have hsp := spells_two hi hj
            refine ⟨⟨[i, j], by simp, hsp, canonical_of_nodup hnd hwf.nonempty hsp⟩, ?_⟩
            intro alt halt
            rw [small_alt hsub halt]
            decide
        have : w.countP (fun t => decide (Forced w t)) < w.length := by
          rw [List.countP_lt_length_iff]
          exact ⟨_, hab, by simpa using hnf⟩
        simp [smallVocab] at hlen
        omega
      · have hle : w.length ≤ 2 := by
          have h5 : w.Subperm [⟨[97], -3, true⟩, ⟨[98], -3, true⟩] := by
            refine List.subperm_of_subset (List.Nodup.of_map _ hnd) ?_
            intro t ht
            have := hsub t ht
            simp only [smallVocab, List.mem_cons, List.not_mem_nil, or_false] at this ⊢
            rcases this with h | h | h
            · exact Or.inl h
            · exact Or.inr h
            · rw [h] at ht; exact absurd ht hab
          exact h5.length_le
        have := List.countP_le_length (p := fun t => decide (Forced w t)) (l := w)
        omega)).1
  intro n m' h
  have := main n m' h
  simpa [smallVocab, smallPruner] using this

end

/-! Real numbers -/

/-- `a`, `b` protected; `ab`. -/
def realVocab : List (ScoredToken ℝ) := [⟨[97], -3, true⟩, ⟨[98], -3, true⟩, ⟨[97, 98], -2, false⟩]

theorem realVocab_wf : WellFormed realVocab := by
  have hm : realVocab.map (·.value) = [[97], [98], [97, 98]] := rfl
  have hv : ∀ t ∈ realVocab, t.value ∈ [[97], [98], [97, 98]] := fun t ht => hm ▸ List.mem_map_of_mem ht
  refine ⟨by unfold NoDuplicates; rw [hm]; decide, fun t ht h => ?_, fun t ht b hb => ?_⟩
  · have := hv t ht
    rw [h] at this
    exact absurd this (by decide)
  · have hall : ∀ v ∈ [[97], [98], [97, 98]], ∀ b ∈ v, b = (97 : UInt8) ∨ b = 98 := by decide
    rcases hall _ (hv t ht) b hb with rfl | rfl
    · exact ⟨_, List.mem_cons_self .., rfl⟩
    · exact ⟨_, List.mem_cons_of_mem _ (List.mem_cons_self ..), rfl⟩

/-- The only sequences of tokens that spell `ab`. -/
theorem realVocab_spells {ids : List Nat} (h : Spells realVocab ids [97, 98]) : ids = [2] ∨ ids = [0, 1] := by
  have hget : ∀ {i : Nat} {t : ScoredToken ℝ}, realVocab[i]? = some t →
      (i = 0 ∧ t.value = [97]) ∨ (i = 1 ∧ t.value = [98]) ∨ (i = 2 ∧ t.value = [97, 98]) := by
    intro i t h
    match i, h with
    | 0, h => simp [realVocab] at h; simp [← h]
    | 1, h => simp [realVocab] at h; simp [← h]
    | 2, h => simp [realVocab] at h; simp [← h]
    | _ + 3, h => simp [realVocab] at h
  have hnil : ∀ {ids : List Nat}, Spells realVocab ids [] → ids = [] := by
    intro ids h
    cases ids with
    | nil => rfl
    | cons i ids =>
      obtain ⟨t, r, ht, _, e⟩ := spells_cons.1 h
      rcases hget ht with ⟨_, e'⟩ | ⟨_, e'⟩ | ⟨_, e'⟩ <;> rw [e'] at e <;> simp at e
  cases ids with
  | nil => rw [spells_nil] at h; simp at h
  | cons i ids =>
    obtain ⟨t, r, ht, hr, e⟩ := spells_cons.1 h
    rcases hget ht with ⟨rfl, e'⟩ | ⟨rfl, e'⟩ | ⟨rfl, e'⟩ <;> rw [e'] at e <;> simp at e
    · right
      cases ids with
      | nil => rw [spells_nil] at hr; rw [hr] at e; simp at e
      | cons j ids =>
        obtain ⟨u, r', hu, hr', e2⟩ := spells_cons.1 hr
        rw [← e] at e2
        rcases hget hu with ⟨rfl, e'⟩ | ⟨rfl, e'⟩ | ⟨rfl, e'⟩ <;> rw [e'] at e2 <;> simp at e2
        subst e2
        rw [hnil hr']
    · left
      subst e
      rw [hnil hr]

noncomputable def realPruner : Pruner ℝ := { vocabSize := 2, shrink := fun n => n / 2, emSubiters := 0, dropout := 0 }

theorem realVocab_loss {ids : List Nat} (hsp : Spells realVocab ids [97, 98]) : ∀ i t alt, realVocab[i]? = some t →
    t.keep = false → 0 < tokenCount [ids] i → BestAlternative realVocab t.value alt →
    pruneLoss [['a', 'b']].length realVocab.length (tokenCount [ids]) i alt ≠ 0 := by
  intro i t alt ht hk hc hb
  match i, ht with
  | 0, ht => simp [realVocab] at ht; subst ht; simp at hk
  | 1, ht => simp [realVocab] at ht; subst ht; simp at hk
  | 2, ht =>
    simp [realVocab] at ht
    subst ht
    have halt : alt = [0, 1] := by
      rcases realVocab_spells hb.1.2.1 with h | h
      · have := hb.1.1
        rw [h] at this
        simp at this
      · exact h
    rcases realVocab_spells hsp with rfl | rfl
    · have hlog : Real.log 3 ≠ 0 := (Real.log_pos (by norm_num)).ne'
      have h0 : tokenCount [[2]] 0 = 0 := rfl
      have h1 : tokenCount [[2]] 1 = 0 := rfl
      have h2 : tokenCount [[2]] 2 = 1 := rfl
      have hlen : realVocab.length = 3 := rfl
      subst halt
      unfold pruneLoss
      rw [hlen]
      simp only [List.range, List.range.loop, List.map_cons, List.map_nil, List.sum_cons, List.sum_nil, h0, h1, h2,
        List.length_cons, List.length_nil]
      norm_num
    · exact absurd hc (by decide)
  | _ + 3, ht => simp [realVocab] at ht

/-- The hypotheses of C65 and C66 are met: a prune step on `a`, `b`, `ab` and the sample `"ab"` returns. -/
example : ∃ idss m', [['a', 'b']].mapM (fun s => (Model.from_ realVocab).encode s (0 : ℝ) (fun _ => 0)) = .ok idss ∧
    Pruner.PruneStep realPruner (listStd ℝ) [['a', 'b']] (Model.from_ realVocab) m' := by
  have henc : enc ['a', 'b'] = [97, 98] := by decide
  obtain ⟨ids, hids⟩ := C04_dropout_total realVocab ['a', 'b'] (0 : ℝ) (fun _ => 0) (by
    rw [henc]
    exact realVocab_wf.covered ⟨[97, 98], -2, false⟩ (by simp [realVocab]))
  have hsp : Spells realVocab ids [97, 98] := by rw [← henc]; exact (C01_encode_lossless _ _ _ _ _ hids).2
  have hm : [['a', 'b']].mapM (fun s => (Model.from_ realVocab).encode s (0 : ℝ) (fun _ => 0)) = .ok [ids] := by
    rw [List.mapM_cons, hids]
    rfl
  obtain ⟨m', h⟩ := C66_prune_returns realPruner (listStd ℝ) listStd_laws _ listHeap_laws (listHeap_max realExact) [['a', 'b']]
    realVocab (by simp [realVocab]) realVocab_wf [ids] hm (realVocab_loss hsp)
  exact ⟨_, m', hm, h⟩

end Tokengeex

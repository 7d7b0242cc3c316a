import Verif.Proofs.EM4
import Verif.Props.Generate
import Verif.Props.History
/-
Properties of expectation maximisation (C78, C79) and what follows for the whole of pruning (C49).
-/
namespace Tokengeex
open Spec ScoreOps RealOps Relation

/-! ### C78 -/

/-- Every vocabulary that `generate` returns can be trained, on any samples. -/
theorem C78_generated (max' : Nat) (prob : ℝ) (split : Option (Str → List Str)) (allow : Option (Str → Bool))
    (added suggested fed : List Str) (g : Generator ℝ) (h : Fed max' prob split allow added suggested fed g)
    (byFreq : Sorter (Str × Nat)) (hf : SortLaws byFreq) (byScore : Sorter (ScoredToken ℝ)) (hs : SortLaws byScore)
    (size : Nat) (w : List (ScoredToken ℝ)) (hg : Generator.Generate g byFreq byScore size w) (samples : List Str) :
    Trainable w samples := by
  obtain ⟨_, h2, h3, h4, _⟩ := C44_generate max' prob split allow added suggested fed g h byFreq hf byScore hs size w hg
  obtain ⟨_, h7, _⟩ := (C45_logprobs max' prob split allow added suggested fed g h byFreq hf byScore hs size).2 w hg
  have hk : ∀ s : Str, BytesKept w (enc s) := fun s b hb => h3 b (enc_ne_255 s b hb)
  refine ⟨h2, ?_, ?_, le_of_eq h7, ?_, fun s _ => hk s⟩
  · intro t ht e
    rcases h4 t ht with ⟨b, _, h⟩ | ⟨h, _⟩
    · rw [e] at h; simp at h
    · rw [e] at h; simp at h
  · obtain ⟨t, ht, e1, k1⟩ := h3 0 (by decide)
    obtain ⟨u, hu, e2, k2⟩ := h3 1 (by decide)
    rw [List.countP_eq_length_filter]
    have hn : [t, u].Nodup := by
      rw [List.nodup_cons]
      refine ⟨?_, List.nodup_singleton _⟩
      intro hm
      rw [List.mem_singleton] at hm
      rw [hm, e2] at e1
      simp at e1
    have hsub : [t, u] ⊆ w.filter (·.keep) := by
      intro x hx
      simp only [List.mem_cons, List.not_mem_nil, or_false] at hx
      rcases hx with rfl | rfl
      · exact List.mem_filter.2 ⟨ht, k1⟩
      · exact List.mem_filter.2 ⟨hu, k2⟩
    exact (List.subperm_of_subset hn hsub).length_le
  · intro t ht
    rcases h4 t ht with ⟨b, hb, h⟩ | ⟨_, s, h, _⟩
    · rw [h]
      intro x hx
      rw [List.mem_singleton] at hx
      subst hx
      exact h3 _ hb
    · rw [← h]
      exact hk s

/-- **C78** (E-step) In exact arithmetic, on a trainable vocabulary, no worker of the E-step panics, whatever the dropout, its
random numbers and its share of the samples; so the E-step returns. -/
theorem C78_e_step (vocab : List (ScoredToken ℝ)) (samples : List Str) (ht : Trainable vocab samples) (dropout : ℝ) :
    (∀ (chunk : List Str) (rnd : Nat → ℝ), (∀ s ∈ chunk, s ∈ samples) →
      ∃ st, Pruner.eChunk (Model.from_ vocab) dropout rnd chunk (Pruner.eInit (Model.from_ vocab)) = .ok st) ∧
    ∃ freqs, Pruner.EStep (Model.from_ vocab) dropout samples freqs := by
  constructor
  · intro chunk rnd hs
    obtain ⟨st, _, h, _⟩ := Pruner.eWorker_ok (Or.inl ht.two) ht.probability dropout rnd chunk (fun s h => ht.covered s (hs s h))
    exact ⟨st, h⟩
  · exact Pruner.eStep_exists (Or.inl ht.two) ht.probability dropout samples ht.covered

/-- **C78** (M-step) In exact arithmetic the M-step returns, on a vocabulary with at least two protected tokens and whatever
frequencies: eight rounds suffice for the loop of `digamma`.  The new scores are logarithms of probabilities adding up to less
than 1; in particular they are negative. -/
theorem C78_m_step (vocab : List (ScoredToken ℝ)) (hk : 2 ≤ vocab.countP (·.keep)) (freqs : List ℝ)
    (hl : freqs.length = vocab.length) :
    ∃ w, (∀ fuel ≥ 8, Pruner.mStep (Model.from_ vocab) freqs fuel = .ok w) ∧ PrunedTo vocab w ∧
      (w.map fun t => Real.exp t.score).sum < 1 ∧ ∀ t ∈ w, t.score < 0 :=
  Pruner.mStep_ok hl hk

theorem Pruner.emStep_trainable {c : Pruner ℝ} {samples : List Str} {vocab : List (ScoredToken ℝ)} (ht : Trainable vocab samples)
    {m' : Model ℝ} (h : EMStep c samples (Model.from_ vocab) m') :
    ∃ w, m' = Model.from_ w ∧ PrunedTo vocab w ∧ Trainable w samples ∧ ∀ t ∈ w, t.score < 0 := by
  obtain ⟨freqs, v, fuel₀, h1, h2, rfl⟩ := h
  obtain ⟨hl, _⟩ := eStep_gives (Or.inl ht.two) ht.probability c.dropout samples ht.covered h1
  obtain ⟨w, h3, h4, h5, h6⟩ := mStep_ok hl ht.several
  have : v = w := by
    have e1 := h2 (max fuel₀ 8) (le_max_left _ _)
    have e2 := h3 (max fuel₀ 8) (le_max_right _ _)
    rw [e1] at e2
    simpa using e2
  subst this
  exact ⟨v, rfl, h4, ht.prunedTo h4 h5.le, h6⟩

theorem Pruner.emSteps_trainable {c : Pruner ℝ} {samples : List Str} {n : Nat} {m m' : Model ℝ} (h : EMSteps c samples n m m') :
    ∀ vocab, m = Model.from_ vocab → Trainable vocab samples →
      ∃ w, m' = Model.from_ w ∧ PrunedTo vocab w ∧ Trainable w samples ∧ (0 < n → ∀ t ∈ w, t.score < 0) := by
  induction h with
  | zero m => intro vocab hm ht; exact ⟨vocab, hm, prunedTo_refl _, ht, fun h => absurd h (by omega)⟩
  | @succ n m m₁ m₂ h1 h2 ih =>
    intro vocab hm ht
    subst hm
    obtain ⟨w, rfl, h4, h5, h6⟩ := emStep_trainable ht h1
    obtain ⟨w', e, h7, h8, h9⟩ := ih w rfl h5
    refine ⟨w', e, prunedTo_trans h4 h7, h8, fun _ => ?_⟩
    rcases Nat.eq_zero_or_pos n with rfl | hn
    · cases h2
      have hv : w = w' := by
        have := congrArg Model.vocab e
        rwa [Model.from_vocab, Model.from_vocab] at this
      subst hv
      exact h6
    · exact h9 hn

/-- **C78** In exact arithmetic, from a trainable vocabulary any number of EM iterations can be made, and none of them panics:
whatever the earlier iterations have done, no worker panics, and the M-step returns whatever the E-step has computed.  The
vocabulary stays trainable, and consists of entries of the original one, with new scores, all negative. -/
theorem C78_em (c : Pruner ℝ) (samples : List Str) (vocab : List (ScoredToken ℝ)) (ht : Trainable vocab samples) (n : Nat) :
    (∃ m', Pruner.EMSteps c samples n (Model.from_ vocab) m') ∧
    ∀ m', Pruner.EMSteps c samples n (Model.from_ vocab) m' →
      (∃ w, m' = Model.from_ w ∧ PrunedTo vocab w ∧ Trainable w samples ∧ (0 < n → ∀ t ∈ w, t.score < 0)) ∧
      (∀ (chunk : List Str) (rnd : Nat → ℝ), (∀ s ∈ chunk, s ∈ samples) →
        ∃ st, Pruner.eChunk m' c.dropout rnd chunk (Pruner.eInit m') = .ok st) ∧
      ∀ freqs, Pruner.EStep m' c.dropout samples freqs → ∃ v, ∀ fuel ≥ 8, Pruner.mStep m' freqs fuel = .ok v := by
  constructor
  · have step : ∀ n vocab, Trainable vocab samples → ∃ m', Pruner.EMSteps c samples n (Model.from_ vocab) m' := by
      intro n
      induction n with
      | zero => intro vocab _; exact ⟨_, .zero _⟩
      | succ n ih =>
        intro vocab ht
        obtain ⟨freqs, hf⟩ := (C78_e_step vocab samples ht c.dropout).2
        obtain ⟨hl, _⟩ := Pruner.eStep_gives (Or.inl ht.two) ht.probability c.dropout samples ht.covered hf
        obtain ⟨w, h3, h4, h5, _⟩ := C78_m_step vocab ht.several freqs hl
        obtain ⟨m', h6⟩ := ih w (ht.prunedTo h4 h5.le)
        exact ⟨m', .succ ⟨freqs, w, 8, hf, h3, rfl⟩ h6⟩
    exact step n vocab ht
  · intro m' h
    obtain ⟨w, rfl, h1, h2, h3⟩ := Pruner.emSteps_trainable h vocab rfl ht
    refine ⟨⟨w, rfl, h1, h2, h3⟩, (C78_e_step w samples h2 c.dropout).1, ?_⟩
    intro freqs hf
    obtain ⟨hl, _⟩ := Pruner.eStep_gives (Or.inl h2.two) h2.probability c.dropout samples h2.covered hf
    obtain ⟨v, h4, _⟩ := C78_m_step w h2.several freqs hl
    exact ⟨v, h4⟩

/-! ### When EM panics -/

namespace Pruner

/-- A one-byte sample whose token has score 0 makes the E-step panic: the logarithm of its probability is 0, which
`is_normal` rejects. -/
theorem eSnippet_panics {vocab : List (ScoredToken ℝ)} {b : UInt8} {i : Nat} {t : ScoredToken ℝ} (hi : LastIndex vocab [b] i)
    (ht : vocab[i]? = some t) (hs : t.score = 0) (dropout : ℝ) (rnd : Nat → ℝ) (st : EState ℝ)
    (hist : History st.pool st.lattice) (hlen : st.expected.length = vocab.length) :
    eSnippet (Model.from_ vocab) dropout rnd st [b] = .error .panic := by
  obtain ⟨pool', hfrom, _⟩ := from_clean st.lattice [b] (history_clean hist)
  obtain ⟨es, k, hpop, hT, hd, hone, _⟩ := C33_populate vocab [b] dropout (fun i => rnd (st.draws + i))
  have hall : ∀ e ∈ es, e = ⟨0, i, 1, 0⟩ := by
    intro e he
    obtain ⟨h1, h2, h3, u, hu, hs'⟩ := hT e he
    simp only [List.length_singleton] at h2
    have hp : e.pos = 0 := by omega
    have hl : e.len = 1 := by omega
    rw [hp, hl] at h3
    have hid : e.id = i := by
      rcases Nat.lt_trichotomy e.id i with h | h | h
      · obtain ⟨x, hx, hv⟩ := hi.1
        exact absurd hv (h3.2 i x h hx)
      · exact h
      · obtain ⟨x, hx, hv⟩ := h3.1
        exact absurd hv (hi.2 e.id x h hx)
    rw [hid, ht] at hu
    cases hu
    cases e
    simp_all
  have hmem : (⟨0, i, 1, 0⟩ : Entry ℝ) ∈ es := hone _ ⟨by simp, by simp, by simpa using hi, t, ht, hs⟩ rfl
  have hes : es = [⟨0, i, 1, 0⟩] := by
    match es, hall, hmem, hd with
    | [], _, hm, _ => simp at hm
    | [e], ha, _, _ => rw [ha e (by simp)]
    | e :: f :: l, ha, _, hd =>
      rw [ha e (by simp), ha f (by simp)] at hd
      simp at hd
  subst hes
  have hi' : i < vocab.length := (List.getElem?_eq_some_iff.1 ht).1
  have hi2 : i < st.expected.length := by omega
  have ha : (latticeOf [b] [(⟨0, i, 1, 0⟩ : Entry ℝ)]).forwardTable = .ok [0, 0, 0] := by
    simp [Lattice.forwardTable, latticeOf, nodesWhere, List.range_succ, Lattice.accPos, Lattice.accSource, idx, setIdx,
      LNode.new, logSumExp_init, ScoreOps.zero, ScoreOps.add]
  have hb : (latticeOf [b] [(⟨0, i, 1, 0⟩ : Entry ℝ)]).backwardTable = .ok [0, 0, 0] := by
    simp [Lattice.backwardTable, latticeOf, nodesWhere, List.range_succ, Lattice.accPos, Lattice.accSource, idx, setIdx,
      LNode.new, logSumExp_init, ScoreOps.zero, ScoreOps.add]
  have hm : ∃ ex, (latticeOf [b] [(⟨0, i, 1, 0⟩ : Entry ℝ)]).populateMarginal st.expected = .ok (ex, 0) := by
    unfold Lattice.populateMarginal
    rw [ha, hb]
    simp [latticeOf, nodesWhere, List.range_succ, Lattice.addMarginal, idx, setIdx, LNode.new, ScoreOps.add, RealOps.sub,
      RealOps.exp, ScoreOps.zero, hi2]
  obtain ⟨ex, hm⟩ := hm
  unfold eSnippet
  rw [hfrom]
  simp only [res_bind_ok]
  rw [hpop]
  simp only [res_bind_ok]
  rw [hm]
  simp only [res_bind_ok]
  rw [show TrainOps.isNormal (0 : ℝ) = false by simp [TrainOps.isNormal]]
  rfl

/-- So no E-step on a corpus with that sample alone returns. -/
theorem eStep_panics {vocab : List (ScoredToken ℝ)} {ch : Char} {b : UInt8} (hb : enc [ch] = [b]) {i : Nat} {t : ScoredToken ℝ}
    (hi : LastIndex vocab [b] i) (ht : vocab[i]? = some t) (hs : t.score = 0) (dropout : ℝ) (freqs : List ℝ) :
    ¬ EStep (Model.from_ vocab) dropout [[ch]] freqs := by
  rintro ⟨val, ⟨n, programs, sched, s, hn, hp, _⟩, _⟩
  have hch : Parallel.chunks n [[ch]] = [[[ch]]] := by
    rw [Parallel.chunks, dif_neg (by simp; omega), List.take_of_length_le (by rw [List.length_singleton]; omega),
      List.drop_of_length_le (by rw [List.length_singleton]; omega),
      Parallel.chunks, dif_pos (by simp)]
  rw [hch] at hp
  cases hp with
  | cons h1 _ =>
    obtain ⟨rnd, st, h2, _⟩ := h1
    unfold eChunk at h2
    rw [List.foldlM_cons, hb] at h2
    have hc : Parallel.chunks maxSampleLength [b] = [[b]] := by
      rw [Parallel.chunks, dif_neg (by simp [maxSampleLength]), List.take_of_length_le (by simp [maxSampleLength]),
        List.drop_of_length_le (by simp [maxSampleLength]), Parallel.chunks, dif_pos (by simp)]
    rw [hc, List.foldlM_cons, eSnippet_panics hi ht hs dropout rnd _ (eInit_history _) (by
      simp [eInit, Model.vocabSize, Model.from_vocab])] at h2
    exact absurd h2 (by simp [bind, Except.bind])

end Pruner

/-- Two protected tokens are needed: with the single token `"a"`, of probability 1/e, the first EM iteration on the corpus
`"a"` gives the token the score 0, and the second one panics. -/
theorem C78_single_false : ∃ (vocab : List (ScoredToken ℝ)) (samples : List Str),
    NoDuplicates vocab ∧ (∀ t ∈ vocab, t.value ≠ []) ∧ SubProbability vocab ∧ (∀ t ∈ vocab, BytesKept vocab t.value) ∧
    (∀ s ∈ samples, BytesKept vocab (enc s)) ∧
    ∀ c : Pruner ℝ, (∃ m', Pruner.EMSteps c samples 1 (Model.from_ vocab) m') ∧
      ∀ m', ¬ Pruner.EMSteps c samples 2 (Model.from_ vocab) m' := by
  have he : enc ['a'] = [97] := by decide
  have hkept : BytesKept [(⟨[97], -1, true⟩ : ScoredToken ℝ)] [97] := by
    intro b hb
    rw [List.mem_singleton] at hb
    subst hb
    exact ⟨_, List.mem_singleton.2 rfl, rfl, rfl⟩
  have hlt : (([(⟨[97], -1, true⟩ : ScoredToken ℝ)]).map fun t => Real.exp t.score).sum < 1 := by
    simp only [List.map_cons, List.map_nil, List.sum_cons, List.sum_nil, add_zero]
    rw [← Real.exp_zero]
    exact Real.exp_lt_exp.2 (by norm_num)
  have hcov : ∀ s ∈ [['a']], BytesCovered [(⟨[97], -1, true⟩ : ScoredToken ℝ)] (enc s) := by
    intro s hs b hb
    rw [List.mem_singleton] at hs
    subst hs
    rw [he] at hb
    obtain ⟨t, h1, h2, _⟩ := hkept b hb
    exact ⟨t, h1, h2⟩
  refine ⟨[⟨[97], -1, true⟩], [['a']], by simp [NoDuplicates], by simp, hlt.le, by simpa using hkept, by simpa [he] using hkept, ?_⟩
  intro c
  have first : ∀ freqs : List ℝ, freqs.length = 1 → ∀ fuel ≥ 8, Pruner.mStep (Model.from_ [(⟨[97], -1, true⟩ : ScoredToken ℝ)]) freqs fuel =
      .ok [⟨[97], 0, true⟩] := by
    intro freqs hl fuel hf
    obtain ⟨f, rfl⟩ := List.length_eq_one_iff.1 hl
    obtain ⟨v, h1, h2⟩ := Pruner.mStep_single (t := ⟨[97], -1, true⟩) rfl f
    rw [h1 fuel hf, h2]
    rfl
  constructor
  · obtain ⟨freqs, hf⟩ := Pruner.eStep_exists (Or.inr hlt) hlt.le c.dropout [['a']] hcov
    have hl := (Pruner.eStep_gives (Or.inr hlt) hlt.le c.dropout [['a']] hcov hf).1
    exact ⟨_, .succ ⟨freqs, _, 8, hf, first freqs hl, rfl⟩ (.zero _)⟩
  · intro m' h
    cases h with
    | succ h1 h2 =>
      obtain ⟨freqs, v, fuel₀, h3, h4, rfl⟩ := h1
      have hl := (Pruner.eStep_gives (Or.inr hlt) hlt.le c.dropout [['a']] hcov h3).1
      have h5 := h4 (max fuel₀ 8) (le_max_left _ _)
      rw [first freqs hl _ (le_max_right _ _)] at h5
      simp only [Except.ok.injEq] at h5
      subst h5
      cases h2 with
      | succ h6 _ =>
        obtain ⟨freqs', _, _, h7, _⟩ := h6
        refine Pruner.eStep_panics he (i := 0) (t := ⟨[97], 0, true⟩) ⟨⟨_, rfl, rfl⟩, ?_⟩ rfl rfl c.dropout freqs' h7
        intro j t hj ht
        rw [List.getElem?_eq_none (by rw [List.length_singleton]; omega)] at ht
        simp at ht

/-- The scores must be logarithms of probabilities: with the tokens `"a"` and `"b"`, both protected and of score 0, the first
EM iteration on the corpus `"a"` panics. -/
theorem C78_scores_false : ∃ (vocab : List (ScoredToken ℝ)) (samples : List Str),
    NoDuplicates vocab ∧ (∀ t ∈ vocab, t.value ≠ []) ∧ 2 ≤ vocab.countP (·.keep) ∧ (∀ t ∈ vocab, BytesKept vocab t.value) ∧
    (∀ s ∈ samples, BytesKept vocab (enc s)) ∧
    ∀ (c : Pruner ℝ) (m' : Model ℝ), ¬ Pruner.EMStep c samples (Model.from_ vocab) m' := by
  have he : enc ['a'] = [97] := by decide
  refine ⟨[⟨[97], 0, true⟩, ⟨[98], 0, true⟩], [['a']], by simp [NoDuplicates], by simp, by simp, ?_, ?_, ?_⟩
  · intro t ht
    simp only [List.mem_cons, List.not_mem_nil, or_false] at ht
    rcases ht with rfl | rfl
    · simp [BytesKept]
    · simp [BytesKept]
  · simp [BytesKept, he]
  · rintro c m' ⟨freqs, _, _, h, _⟩
    refine Pruner.eStep_panics he (i := 0) (t := ⟨[97], 0, true⟩) ⟨⟨_, rfl, rfl⟩, ?_⟩ rfl rfl c.dropout freqs h
    intro j t hj ht
    match j, ht with
    | 0, _ => omega
    | 1, ht =>
      simp only [List.getElem?_cons_succ, List.getElem?_cons_zero, Option.some.injEq] at ht
      rw [← ht]
      simp
    | j + 2, ht => simp at ht

/-! ### C79 -/

/-- **C79** In exact arithmetic and without dropout, the E-step computes, for every token and up to one part in a million, the
expected number of its uses in the corpus: the sum over the pieces of at most 81920 bytes of the samples of the expected number
of uses in a way of cutting the piece into tokens that is drawn with a probability proportional to the product of the
probabilities of its tokens.  This holds whatever the number of threads, the division of the work and the schedule. -/
theorem C79_expected_uses (vocab : List (ScoredToken ℝ)) (samples : List Str) (ht : Trainable vocab samples)
    (hsize : vocab.length ≤ 4294967296) (pieces : Str → List (List UInt8)) (hpieces : ∀ s, CutEvery 81920 (enc s) (pieces s))
    (cuts : List UInt8 → Finset (List Nat)) (hcuts : ∀ bs, AllCuts vocab bs (cuts bs)) (dropout : ℝ) (hd : dropout ≤ 0)
    (freqs : List ℝ) (h : Pruner.EStep (Model.from_ vocab) dropout samples freqs) :
    freqs.length = vocab.length ∧ ∀ i f, freqs[i]? = some f →
      Nearly f (samples.map fun s => ((pieces s).map fun p => expectedUses vocab (cuts p) i).sum).sum := by
  obtain ⟨hl, ys, h1, h2⟩ := Pruner.eStep_gives (Or.inl ht.two) ht.probability dropout samples ht.covered h
  refine ⟨hl, fun i f hf => ?_⟩
  have hi : i < vocab.length := by rw [← hl]; exact (List.getElem?_eq_some_iff.1 hf).1
  rw [h2 i hi] at hf
  simp only [Option.some.injEq] at hf
  rw [← hf]
  refine nearly_forall₂ (φ := fun y => y i) ?_ h1
  rintro s y ⟨zs, h3, rfl⟩
  rw [cutEvery_chunks (by norm_num) _ _ (hpieces s)]
  refine nearly_forall₂ (φ := fun y => y i) ?_ h3
  intro p z hz
  obtain ⟨es, segs, g1, g2, _, g4, g5, _, g7⟩ := Pruner.pieceGives_bounds hsize hz
  rw [← expectedCount_cuts ht.nodup ht.nonempty g1 g2 (g4 (by simpa [ScoreOps.lt, ScoreOps.zero] using hd)) g5 (hcuts p)]
  exact g7 i hi

theorem sum_zip_lengths (vocab : List (ScoredToken ℝ)) (g : Nat → ℝ) :
    ((vocab.zip ((List.range vocab.length).map g)).map fun p => (p.1.value.length : ℝ) * p.2).sum =
      ∑ i ∈ Finset.range vocab.length, (lenOf vocab i : ℝ) * g i := by
  induction vocab generalizing g with
  | nil => simp
  | cons t v ih =>
    rw [List.length_cons, List.range_succ_eq_map, List.map_cons, List.zip_cons_cons, List.map_cons, List.sum_cons,
      Finset.sum_range_succ', List.map_map, ih, add_comm]
    simp [lenOf]

/-- **C79** (total) In exact arithmetic and with any dropout, the expected frequencies the E-step computes, each multiplied by
the length of its token, add up to the size of the corpus in bytes, up to one part in a million. -/
theorem C79_total (vocab : List (ScoredToken ℝ)) (samples : List Str) (ht : Trainable vocab samples)
    (hsize : vocab.length ≤ 4294967296) (dropout : ℝ) (freqs : List ℝ)
    (h : Pruner.EStep (Model.from_ vocab) dropout samples freqs) :
    Nearly ((vocab.zip freqs).map fun p => (p.1.value.length : ℝ) * p.2).sum (samples.map fun s => ((enc s).length : ℝ)).sum := by
  obtain ⟨hl, ys, h1, h2⟩ := Pruner.eStep_gives (Or.inl ht.two) ht.probability dropout samples ht.covered h
  have e1 : ((vocab.zip freqs).map fun p => (p.1.value.length : ℝ) * p.2).sum =
      ∑ i ∈ Finset.range vocab.length, (lenOf vocab i : ℝ) * (ys.map (· i)).sum := by
    have hf : freqs = (List.range vocab.length).map (fun i => (ys.map (· i)).sum) := by
      apply List.ext_getElem?
      intro i
      by_cases hi : i < vocab.length
      · rw [h2 i hi, List.getElem?_map, List.getElem?_range hi]; rfl
      · rw [List.getElem?_eq_none (by omega), List.getElem?_eq_none (by simpa using hi)]
    rw [hf]
    exact sum_zip_lengths vocab _
  have e2 : ∑ i ∈ Finset.range vocab.length, (lenOf vocab i : ℝ) * (ys.map (· i)).sum =
      (ys.map fun y => ∑ i ∈ Finset.range vocab.length, (lenOf vocab i : ℝ) * y i).sum := by
    clear h1 h2 e1
    induction ys with
    | nil => simp
    | cons y ys ih => simp only [List.map_cons, List.sum_cons, mul_add, Finset.sum_add_distrib, ih]
  rw [e1, e2]
  refine nearly_forall₂ ?_ h1
  rintro s y ⟨zs, h3, rfl⟩
  have e3 : ∑ i ∈ Finset.range vocab.length, (lenOf vocab i : ℝ) * (zs.map (· i)).sum =
      (zs.map fun y => ∑ i ∈ Finset.range vocab.length, (lenOf vocab i : ℝ) * y i).sum := by
    clear h3
    induction zs with
    | nil => simp
    | cons y ys ih => simp only [List.map_cons, List.sum_cons, mul_add, Finset.sum_add_distrib, ih]
  have e4 : ((enc s).length : ℝ) = ((Parallel.chunks Pruner.maxSampleLength (enc s)).map fun p => (p.length : ℝ)).sum := by
    conv_lhs => rw [← Parallel.chunks_flatten Pruner.maxSampleLength (by decide) (enc s)]
    rw [List.length_flatten, Nat.cast_list_sum, List.map_map]
    rfl
  simp only
  rw [e3, e4]
  exact nearly_forall₂ (fun p y hp => Pruner.pieceGives_mass hsize hp) h3

/-! ### C49 -/

theorem Pruner.pruneStep_trainable {c : Pruner ℝ} {std : Std ℝ} (hstd : StdLaws std) {samples : List Str}
    {vocab : List (ScoredToken ℝ)} (hsize : vocab.length ≤ 4294967294) (ht : Trainable vocab samples) {m' : Model ℝ}
    (h : PruneStep c std samples (Model.from_ vocab) m') : ∃ w, m' = Model.from_ w ∧ PrunedTo vocab w ∧ Trainable w samples := by
  obtain ⟨w, ids, rfl, h1, h2, h3, _⟩ := C48_prune_step c std hstd samples vocab hsize m' h
  have hp : PrunedTo vocab w := ⟨ids, w, h1, h2, List.forall₂_same.2 (fun _ _ => ⟨rfl, rfl⟩), h3⟩
  exact ⟨w, rfl, hp, ht.prunedTo hp (subProbability_entriesAt h1 h2 ht.probability)⟩

/-- **C78** (run) In exact arithmetic the vocabulary stays trainable during the whole of pruning. -/
theorem C78_run (c : Pruner ℝ) (std : Pruner.Std ℝ) (hstd : StdLaws std) (samples : List Str) (vocab : List (ScoredToken ℝ))
    (hsize : vocab.length ≤ 4294967294) (ht : Trainable vocab samples) (m' : Model ℝ)
    (h : ReflTransGen (Pruner.Pass c std samples) (Model.from_ vocab) m') :
    ∃ w, m' = Model.from_ w ∧ PrunedTo vocab w ∧ Trainable w samples := by
  induction h with
  | refl => exact ⟨vocab, rfl, prunedTo_refl _, ht⟩
  | @tail m₁ m₂ _ h2 ih =>
    obtain ⟨w₁, rfl, h3, h4⟩ := ih
    obtain ⟨_, m₁, h5, h6⟩ := h2
    obtain ⟨w₂, rfl, h7, h8, _⟩ := Pruner.emSteps_trainable h5 w₁ rfl h4
    have l1 := prunedTo_length h3
    have l2 := prunedTo_length h7
    obtain ⟨w, e, h9, h10⟩ := Pruner.pruneStep_trainable hstd (by omega) h8 h6
    exact ⟨w, e, prunedTo_trans (prunedTo_trans h3 h7) h9, h10⟩

open Classical in
/-- **C49** (partial) In exact arithmetic and from a trainable vocabulary, pruning returns with at most `vocab_size` tokens, after
at most `vocab.length - vocab_size` passes, and no pass panics, if: the shrink factor really shrinks every vocabulary that is too
large; no prune step meets a vocabulary with more forced tokens (protected, or not worth more than some other way of cutting
them) than it may keep; and the loss of an unprotected token that occurs is never exactly 0.  Without the first two the claim is
false (`C49_false`). -/
theorem C49_returns_partial (c : Pruner ℝ) (std : Pruner.Std ℝ) (hstd : StdLaws std) (ok : List (Hypo ℝ) → Prop)
    (hheap : HeapLaws std.heap ok) (hmax : HeapMax std.heap ok) (samples : List Str) (vocab : List (ScoredToken ℝ))
    (hsize : vocab.length ≤ 4294967294) (ht : Trainable vocab samples)
    (hshrink : ∀ n, c.vocabSize < n → n ≤ vocab.length → c.shrink n < n)
    (hforced : ∀ m w, ReflTransGen (Pruner.Pass c std samples) (Model.from_ vocab) m →
      Pruner.EMSteps c samples c.emSubiters m (Model.from_ w) →
      w.countP (fun t => decide (Forced w t)) ≤ max (c.shrink w.length) c.vocabSize)
    (hloss : ∀ m w idss, ReflTransGen (Pruner.Pass c std samples) (Model.from_ vocab) m → c.vocabSize < m.vocabSize →
      Pruner.EMSteps c samples c.emSubiters m (Model.from_ w) →
      samples.mapM (fun s => (Model.from_ w).encode s 0 (fun _ => 0)) = .ok idss →
      ∀ i t alt, w[i]? = some t → t.keep = false → 0 < tokenCount idss i → BestAlternative w t.value alt →
        pruneLoss samples.length w.length (tokenCount idss) i alt ≠ 0) :
    (∃ m', Pruner.Returns c std samples (Model.from_ vocab) m') ∧
    (∀ m', Pruner.Returns c std samples (Model.from_ vocab) m' → m'.vocabSize ≤ c.vocabSize) ∧
    (∀ n m', PassesOf (Pruner.Pass c std samples) n (Model.from_ vocab) m' → n ≤ vocab.length - c.vocabSize) ∧
    ∀ m, ReflTransGen (Pruner.Pass c std samples) (Model.from_ vocab) m → c.vocabSize < m.vocabSize →
      ∃ m', Pruner.Pass c std samples m m' := by
  have hpart := C49_prune_partial realExact c std hstd ok hheap hmax samples vocab hsize hshrink (by
    intro m w hr hem
    obtain ⟨v, rfl, _, hv⟩ := C78_run c std hstd samples vocab hsize ht m hr
    obtain ⟨w', e, _, hw, _⟩ := Pruner.emSteps_trainable hem v rfl hv
    have : w = w' := by
      have := congrArg Model.vocab e
      rwa [Model.from_vocab, Model.from_vocab] at this
    subst this
    exact ⟨hw.wellFormed, hforced _ w hr hem⟩)
  have hprog : ∀ m, ReflTransGen (Pruner.Pass c std samples) (Model.from_ vocab) m → c.vocabSize < m.vocabSize →
      ∃ m', Pruner.Pass c std samples m m' := by
    intro m hr hlarge
    obtain ⟨v, rfl, hv1, hv⟩ := C78_run c std hstd samples vocab hsize ht m hr
    obtain ⟨⟨m₁, hem⟩, _⟩ := C78_em c samples v hv c.emSubiters
    obtain ⟨w, rfl, hw1, hw, _⟩ := Pruner.emSteps_trainable hem v rfl hv
    have l1 := prunedTo_length hv1
    have l2 := prunedTo_length hw1
    have hm : ∀ l : List Str, (∀ s ∈ l, s ∈ samples) →
        ∃ idss, l.mapM (fun s => (Model.from_ w).encode s (0 : ℝ) (fun _ => 0)) = .ok idss := by
      intro l
      induction l with
      | nil => intro _; exact ⟨[], rfl⟩
      | cons s l ih =>
        intro hs
        obtain ⟨ids, h1⟩ := C04_dropout_total w s (0 : ℝ) (fun _ => 0) (hw.covered s (hs s (List.mem_cons_self ..)))
        obtain ⟨idss, h2⟩ := ih (fun x hx => hs x (List.mem_cons_of_mem _ hx))
        refine ⟨ids :: idss, ?_⟩
        rw [List.mapM_cons, h1]
        simp only [res_bind_ok]
        rw [h2]
        rfl
    obtain ⟨idss, hids⟩ := hm samples (fun _ h => h)
    obtain ⟨m', hp⟩ := C66_prune_returns c std hstd ok hheap hmax samples w (by omega) hw.wellFormed idss hids
      (hloss _ w idss hr hlarge hem hids)
    exact ⟨m', hlarge, _, hem, hp⟩
  refine ⟨?_, hpart.2, hpart.1, hprog⟩
  -- a longest run has returned
  by_contra hno
  have long : ∀ n, ∃ m', PassesOf (Pruner.Pass c std samples) n (Model.from_ vocab) m' := by
    intro n
    induction n with
    | zero => exact ⟨_, .zero _⟩
    | succ n ih =>
      obtain ⟨m, hm⟩ := ih
      have hlarge : c.vocabSize < m.vocabSize := by
        by_contra hsmall
        exact hno ⟨m, hm.reach, hsmall⟩
      obtain ⟨m', hp⟩ := hprog m hm.reach hlarge
      exact ⟨m', .succ hm hp⟩
  obtain ⟨m', hm⟩ := long (vocab.length - c.vocabSize + 1)
  have := hpart.1 _ _ hm
  omega

/-! ### Non-vacuity -/

theorem realVocab_trainable : Trainable realVocab [['a', 'b']] := by
  have he : enc ['a', 'b'] = [97, 98] := by decide
  have hk : ∀ b : UInt8, b = 97 ∨ b = 98 → ∃ t ∈ realVocab, t.value = [b] ∧ t.keep = true := by
    rintro b (rfl | rfl)
    · exact ⟨_, List.mem_cons_self .., rfl, rfl⟩
    · exact ⟨_, List.mem_cons_of_mem _ (List.mem_cons_self ..), rfl, rfl⟩
  refine ⟨realVocab_wf.nodup, realVocab_wf.nonempty, by simp [realVocab], ?_, ?_, ?_⟩
  · have h1 : Real.exp (-3 : ℝ) ≤ 1 / 4 := by
      rw [Real.exp_neg, inv_eq_one_div]
      exact one_div_le_one_div_of_le (by norm_num) (by have := Real.add_one_le_exp (3 : ℝ); linarith)
    have h2 : Real.exp (-2 : ℝ) ≤ 1 / 3 := by
      rw [Real.exp_neg, inv_eq_one_div]
      exact one_div_le_one_div_of_le (by norm_num) (by have := Real.add_one_le_exp (2 : ℝ); linarith)
    unfold SubProbability
    simp only [realVocab, List.map_cons, List.map_nil, List.sum_cons, List.sum_nil]
    linarith
  · intro t ht b hb
    apply hk
    simp only [realVocab, List.mem_cons, List.not_mem_nil, or_false] at ht
    rcases ht with rfl | rfl | rfl
    · simp only [List.mem_singleton] at hb; exact Or.inl hb
    · simp only [List.mem_singleton] at hb; exact Or.inr hb
    · simpa using hb
  · intro s hs b hb
    rw [List.mem_singleton] at hs
    subst hs
    rw [he] at hb
    exact hk b (by simpa using hb)

/-- The hypotheses of C78_em are met: three EM iterations on `a`, `b`, `ab` and the sample `"ab"`. -/
example : ∃ m', Pruner.EMSteps ({ realPruner with dropout := 1 / 10 } : Pruner ℝ) [['a', 'b']] 3 (Model.from_ realVocab) m' :=
  (C78_em _ _ _ realVocab_trainable 3).1

/-- The hypotheses of C79 are met: on the sample `"ab"` the expected number of uses of `ab` is `e⁻²/(e⁻² + e⁻⁶)`. -/
example (freqs : List ℝ) (h : Pruner.EStep (Model.from_ realVocab) 0 [['a', 'b']] freqs) :
    ∃ f, freqs[2]? = some f ∧ Nearly f (Real.exp (-2) / (Real.exp (-2) + Real.exp (-6))) := by
  have he : enc ['a', 'b'] = [97, 98] := by decide
  classical
  have hfin := cuts_finite realVocab_wf.nonempty
  let cuts : List UInt8 → Finset (List Nat) := fun bs => if bs = [97, 98] then {[2], [0, 1]} else (hfin bs).toFinset
  have hcuts : ∀ bs, AllCuts realVocab bs (cuts bs) := by
    intro bs
    by_cases hb : bs = [97, 98]
    · subst hb
      intro ids
      simp only [cuts, if_true, Finset.mem_insert, Finset.mem_singleton]
      refine ⟨?_, realVocab_spells⟩
      rintro (rfl | rfl)
      · exact ⟨[⟨[97, 98], -2, false⟩], rfl, rfl⟩
      · exact ⟨[⟨[97], -3, true⟩, ⟨[98], -3, true⟩], rfl, rfl⟩
    · intro ids
      simp only [cuts, if_neg hb, Set.Finite.mem_toFinset, Set.mem_ofPred_eq]
  obtain ⟨hl, main⟩ := C79_expected_uses realVocab [['a', 'b']] realVocab_trainable (by simp [realVocab])
    (fun s => Parallel.chunks 81920 (enc s)) (fun s => chunks_cutEvery (by norm_num) _) cuts hcuts 0 le_rfl freqs h
  have h2 : 2 < freqs.length := by rw [hl]; simp [realVocab]
  refine ⟨freqs[2], List.getElem?_eq_getElem h2, ?_⟩
  have := main 2 freqs[2] (List.getElem?_eq_getElem h2)
  have hc : Parallel.chunks 81920 [97, 98] = [([97, 98] : List UInt8)] := by
    rw [Parallel.chunks, dif_neg (by simp), List.take_of_length_le (by simp), List.drop_of_length_le (by simp),
      Parallel.chunks, dif_pos (by simp)]
  simp only [List.map_cons, List.map_nil, List.sum_cons, List.sum_nil, he, hc, add_zero] at this
  have hval : expectedUses realVocab (cuts [97, 98]) 2 = Real.exp (-2) / (Real.exp (-2) + Real.exp (-6)) := by
    have hs : ∀ f : List Nat → ℝ, ∑ ids ∈ cuts [97, 98], f ids = f [2] + f [0, 1] := by
      intro f
      simp only [cuts, if_true]
      exact Finset.sum_pair (by decide)
    unfold expectedUses
    rw [hs, hs]
    have w1 : cutWeight realVocab [2] = Real.exp (-2) := by simp [cutWeight, scoreOf, realVocab]
    have w2 : cutWeight realVocab [0, 1] = Real.exp (-6) := by
      simp [cutWeight, scoreOf, realVocab]
      norm_num
    rw [w1, w2]
    norm_num
  rw [hval] at this
  exact this

/-- The hypotheses of C79_total are met, with dropout. -/
example : ∃ freqs, Pruner.EStep (Model.from_ realVocab) (1 / 2) [['a', 'b']] freqs :=
  (C78_e_step _ _ realVocab_trainable _).2

open Classical in
/-- The hypotheses of C49_returns_partial are met: pruning `a`, `b`, `ab` to two tokens on the sample `"ab"` returns. -/
theorem realPruner_returns : ∃ m', Pruner.Returns realPruner (listStd ℝ) [['a', 'b']] (Model.from_ realVocab) m' ∧ m'.vocabSize ≤ 2 := by
  have henc : enc ['a', 'b'] = [97, 98] := by decide
  have hv : ∀ {v w : List (ScoredToken ℝ)}, Model.from_ v = Model.from_ w → v = w := by
    intro v w e
    have := congrArg Model.vocab e
    rwa [Model.from_vocab, Model.from_vocab] at this
  have hf : realVocab.countP (fun t => decide (Forced realVocab t)) ≤ max (realPruner.shrink realVocab.length) realPruner.vocabSize := by
    have hnf : ¬ Forced realVocab ⟨[97, 98], -2, false⟩ := by
      rintro (hk | hr)
      · simp at hk
      · apply hr
        have hsp : Spells realVocab [0, 1] [97, 98] := ⟨[⟨[97], -3, true⟩, ⟨[98], -3, true⟩], rfl, rfl⟩
        refine ⟨⟨[0, 1], by simp, hsp, canonical_of_nodup realVocab_wf.nodup realVocab_wf.nonempty hsp⟩, ?_⟩
        intro alt halt
        rcases realVocab_spells halt.2.1 with rfl | rfl
        · exact absurd halt.1 (by simp)
        · simp [totalScore, scoreOf, realVocab, ScoreOps.lt, ScoreOps.add, ScoreOps.zero]
          norm_num
    have : realVocab.countP (fun t => decide (Forced realVocab t)) < realVocab.length := by
      rw [List.countP_lt_length_iff]
      exact ⟨⟨[97, 98], -2, false⟩, by simp [realVocab], by simpa using hnf⟩
    have hl : realVocab.length = 3 := rfl
    show _ ≤ max _ 2
    omega
  have hreach : ∀ m, ReflTransGen (Pruner.Pass realPruner (listStd ℝ) [['a', 'b']]) (Model.from_ realVocab) m →
      m = Model.from_ realVocab ∨ m.vocabSize ≤ 2 := by
    intro m h
    induction h with
    | refl => exact Or.inl rfl
    | @tail m₁ m₂ _ h2 ih =>
      obtain ⟨h3, m₀, h4, h5⟩ := h2
      right
      rcases ih with rfl | ih
      · cases h4
        obtain ⟨rnd, freqs, w, fuel₀, _, hw, rfl⟩ := h5
        obtain ⟨_, _, _, _, _, e, _⟩ := Pruner.pruneVocab_exact realExact listStd_laws listHeap_laws (listHeap_max realExact)
          (by simp [realVocab]) realVocab_wf hw
        have := e hf
        rw [Model.vocabSize, Model.from_vocab]
        exact this
      · exact absurd h3 (by simp only [realPruner]; omega)
  have main := C49_returns_partial realPruner (listStd ℝ) listStd_laws _ listHeap_laws (listHeap_max realExact) [['a', 'b']]
    realVocab (by simp [realVocab]) realVocab_trainable (by
      intro n h1 _
      simp only [realPruner] at h1 ⊢
      omega) (by
      intro m w hr hem
      cases hem
      rcases hreach _ hr with h | h
      · rw [hv h]; exact hf
      · rw [Model.vocabSize, Model.from_vocab] at h
        refine List.countP_le_length.trans (h.trans ?_)
        exact le_max_right _ _) (by
      intro m w idss hr hl hem hids
      cases hem
      rcases hreach _ hr with h | h
      · have := hv h
        subst this
        rw [List.mapM_cons] at hids
        obtain ⟨ids, h1, hids⟩ := bind_ok hids
        simp only [List.mapM_nil, pure_bind] at hids
        cases hids
        exact realVocab_loss (by rw [← henc]; exact (C01_encode_lossless _ _ _ _ _ h1).2)
      · exact absurd hl (by simp only [realPruner]; omega))
  obtain ⟨m', h⟩ := main.1
  exact ⟨m', h, main.2.1 m' h⟩

end Tokengeex

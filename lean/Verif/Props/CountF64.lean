import Verif.Proofs.CountF64
import Verif.Props.TrainF64
import Mathlib.Data.Set.Finite.List
/-
C79 for doubles.
-/
namespace Tokengeex
open Spec

/-- **C79** (doubles) With doubles, without dropout, and whatever the accuracy `ε` of the logarithm and `η` of the exponential
function, if they are at most 2⁻⁴⁰: on a vocabulary and corpus fit for doubles, the frequency the E-step gives to each token is
the expected number of its uses, up to a relative error of `12 N δ` and an absolute error of
`N (η + (4 B + 2 N) / 2⁵³)` for each piece and each sample.  Here no piece of a sample has more than `L` bytes and no token more
than `M`, `N = L M + 2` bounds the number of nodes of a lattice, `B` is the number of bytes of the corpus, `P` the number of
pieces, and `δ` the error of one `log_sum_exp`. -/
theorem C79_expected_uses_doubles [Elementary] (ε η : ℝ) (hln : LnWithin ε) (hexp : ExpWithin η) (hε : ε ≤ (1 / 2) ^ 40)
    (hη : η ≤ (1 / 2) ^ 40) (vocab : List (ScoredToken F64)) (samples : List Str) (hfit : FitForDoubles vocab samples)
    (hnodup : NoDuplicates vocab) (hnonempty : ∀ t ∈ vocab, t.value ≠ [])
    (pieces : Str → List (List UInt8)) (hpieces : ∀ s, CutEvery 81920 (enc s) (pieces s))
    (cuts : List UInt8 → Finset (List Nat)) (hcuts : ∀ bs, AllCuts (realVocabOf vocab) bs (cuts bs))
    (dropout : F64) (hd : F64.lt (F64.num false 0) dropout = false)
    (L M N B P : Nat) (hL : ∀ s ∈ samples, ∀ p ∈ pieces s, p.length ≤ L) (hM : ∀ t ∈ vocab, t.value.length ≤ M) (hM' : M ≤ 256)
    (hN : N = L * M + 2) (hB : B = (samples.map fun s => (enc s).length).sum) (hP : P = (samples.map fun s => (pieces s).length).sum)
    (δ : ℝ) (hδ : δ = ε + 2 * η + (L * (64 + Real.log N) + 320) / 2 ^ 53)
    (freqs : List F64) (h : Pruner.EStep (Model.from_ vocab) dropout samples freqs) :
    freqs.length = vocab.length ∧ ∀ i f, freqs[i]? = some f →
      ∃ uses : ℝ, uses = (samples.map fun s => ((pieces s).map fun p => expectedUses (realVocabOf vocab) (cuts p) i).sum).sum ∧
        |real f - uses| ≤ 12 * (N * δ) * uses + ((P : ℝ) + samples.length) * (N * (η + (4 * B + 2 * N) / 2 ^ 53)) := by
  obtain rfl : pieces = fun s => Parallel.chunks Pruner.maxSampleLength (enc s) :=
    funext fun s => cutEvery_chunks (by decide) _ _ (hpieces s)
  have hs : Pruner.Setting ε η vocab cuts dropout M := ⟨hln, hexp, hε, hη, hnodup, hnonempty, hfit.scores, hM, hM', hcuts, hd⟩
  refine ⟨(Pruner.eStep_bounds hln hexp hε hη hfit h).1, fun i f hf => ⟨_, rfl, ?_⟩⟩
  have := Pruner.eStep_tracks hs hfit hN hL h i f hf
  rw [hP, hB, hδ]
  exact this

/-! ### The hypotheses can be met -/

/-- A sequence of bytes can be cut in finitely many ways only, if no token is empty. -/
theorem cuts_exist (vocab : List (ScoredToken ℝ)) (hne : ∀ t ∈ vocab, t.value ≠ []) (bs : List UInt8) :
    ∃ cuts, AllCuts vocab bs cuts := by
  have hfin : Set.Finite {ids | Spells vocab ids bs} := by
    refine ((List.finite_length_le (Fin vocab.length) bs.length).image (List.map Fin.val)).subset ?_
    rintro ids ⟨toks, h1, h2⟩
    have hlen : ids.length = toks.length := by simpa using congrArg List.length h1
    have hget : ∀ i ∈ ids, i < vocab.length := by
      intro i hi
      have : vocab[i]? ∈ toks.map some := by
        rw [← h1]
        exact List.mem_map.2 ⟨i, hi, rfl⟩
      obtain ⟨t, _, ht⟩ := List.mem_map.1 this
      exact (List.getElem?_eq_some_iff.1 ht.symm).1
    have htoks : ∀ t ∈ toks, t ∈ vocab := by
      intro t ht
      have : some t ∈ ids.map fun i => vocab[i]? := by
        rw [h1]
        exact List.mem_map.2 ⟨t, ht, rfl⟩
      obtain ⟨i, _, hi⟩ := List.mem_map.1 this
      exact List.mem_of_getElem? hi
    refine ⟨ids.attach.map fun x => ⟨x.1, hget _ x.2⟩, ?_, ?_⟩
    · rw [Set.mem_ofPred_eq]
      rw [List.length_map, List.length_attach, hlen, ← h2]
      clear h1 h2 hlen
      induction toks with
      | nil => simp
      | cons t toks ih =>
        have h0 : 0 < t.value.length := List.length_pos_iff.2 (hne t (htoks t (List.mem_cons_self ..)))
        have := ih (fun t ht => htoks t (List.mem_cons_of_mem _ ht))
        rw [List.map_cons, List.flatten_cons, List.length_append, List.length_cons]
        omega
    · simp
  exact ⟨hfin.toFinset, fun ids => by simp⟩

theorem trainDoubles_nonempty : ∀ t ∈ trainDoubles, t.value ≠ [] := by
  intro t ht
  rcases List.mem_cons.1 ht with rfl | ht
  · simp
  rcases List.mem_cons.1 ht with rfl | ht
  · simp
  · rw [List.mem_singleton.1 ht]
    simp

/-- Non-vacuity: an E-step on this vocabulary, with the accuracy of its frequencies. -/
example : ∃ (_ : Elementary) (freqs : List F64) (cuts : List UInt8 → Finset (List Nat)),
    Pruner.EStep (Model.from_ trainDoubles) (F64.num false 0) [['a', 'b'], ['b']] freqs ∧
    (∀ bs, AllCuts (realVocabOf trainDoubles) bs (cuts bs)) ∧
    ∀ i f, freqs[i]? = some f →
      |real f - ([[97, 98], [98]].map fun p => expectedUses (realVocabOf trainDoubles) (cuts p) i).sum| ≤
        1 / 1000000 * ([[97, 98], [98]].map fun p => expectedUses (realVocabOf trainDoubles) (cuts p) i).sum + 1 / 1000000 := by
  obtain ⟨E, h1, _, h2⟩ := elementary_exists
  have hl : (1 / 2 : ℝ) ^ 42 ≤ (1 / 2) ^ 40 := by norm_num
  obtain ⟨freqs, hf⟩ := ((@C78_e_step_doubles E _ _ h1 h2 hl hl trainDoubles _ trainDoubles_fit (F64.num false 0)).1
    trainDoubles_spread).2
  choose cuts hcuts using cuts_exist (realVocabOf trainDoubles) (nonempty_real trainDoubles_nonempty)
  refine ⟨E, freqs, cuts, hf, hcuts, fun i f hi => ?_⟩
  have e1 : enc ['a', 'b'] = [97, 98] := by decide +kernel
  have e2 : enc ['b'] = [98] := by decide +kernel
  have hc : ∀ bs : List UInt8, bs ≠ [] → bs.length ≤ 81920 → Parallel.chunks 81920 bs = [bs] := fun bs h0 h1 =>
    (cutEvery_chunks (n := 81920) (by omega) [bs] bs ⟨by simp, by
      intro p hp
      rw [List.mem_singleton.1 hp]
      exact ⟨h0, h1⟩, by simp⟩).symm
  have c1 : Parallel.chunks 81920 (enc ['a', 'b']) = [[97, 98]] := by rw [e1]; exact hc _ (by simp) (by simp)
  have c2 : Parallel.chunks 81920 (enc ['b']) = [[98]] := by rw [e2]; exact hc _ (by simp) (by simp)
  obtain ⟨_, hall⟩ := @C79_expected_uses_doubles E _ _ h1 h2 hl hl trainDoubles _ trainDoubles_fit (by
      unfold NoDuplicates trainDoubles
      simp) trainDoubles_nonempty
    (fun s => Parallel.chunks 81920 (enc s)) (fun s => chunks_cutEvery (by omega) _) cuts hcuts (F64.num false 0) (by decide +kernel)
    2 2 6 3 2 (by
      intro s hs p hp
      rcases List.mem_cons.1 hs with rfl | hs
      · rw [c1] at hp
        rw [List.mem_singleton.1 hp]
        simp
      · rw [List.mem_singleton.1 hs, c2] at hp
        rw [List.mem_singleton.1 hp]
        simp) (by
      intro t ht
      obtain ⟨v, n, k, _, h3, rfl⟩ := trainDoubles_mem ht
      exact h3) (by omega) rfl (by decide +kernel) (by simp only [List.map_cons, List.map_nil, c1, c2]; rfl) _ rfl freqs hf
  obtain ⟨uses, h3, h4⟩ := hall i f hi
  simp only [List.map_cons, List.map_nil, c1, c2, List.sum_cons, List.sum_nil, add_zero] at h3 ⊢
  rw [← h3]
  have h0 : 0 ≤ uses := by
    rw [h3]
    exact add_nonneg (expectedUses_nonneg _ _ _) (expectedUses_nonneg _ _ _)
  have hlog : Real.log ((6 : Nat) : ℝ) ≤ 5 := by
    have := Real.log_le_sub_one_of_pos (show (0 : ℝ) < 6 by norm_num)
    push_cast
    linarith
  refine h4.trans (add_le_add (mul_le_mul_of_nonneg_right ?_ h0) ?_)
  · generalize Real.log ((6 : Nat) : ℝ) = x at *
    norm_num
    linarith
  · norm_num

end Tokengeex

import Verif.Proofs.EStepF64
import Verif.Props.EM
/-
The accuracy of the E-step with doubles.
-/
namespace Tokengeex
open Spec

theorem lastIndex_of_real {vocab : List (ScoredToken F64)} {v : List UInt8} {i : Nat} (h : LastIndex (realVocabOf vocab) v i) :
    LastIndex vocab v i := by
  obtain ⟨⟨t, h1, h2⟩, h3⟩ := h
  unfold realVocabOf at h1 h3
  rw [List.getElem?_map] at h1
  cases hv : vocab[i]? with
  | none => rw [hv] at h1; simp at h1
  | some x =>
    rw [hv] at h1
    simp only [Option.map_some, Option.some.injEq] at h1
    subst h1
    refine ⟨⟨x, hv, h2⟩, fun j u hj hu => ?_⟩
    exact h3 j _ hj (by rw [List.getElem?_map, hu]; rfl)

/-- If all the tokens of a sentence are in the lattice, they are so with the numbers their scores stand for. -/
theorem all_real {vocab : List (ScoredToken F64)} {sentence : List UInt8} {es : List (Entry F64)}
    (h : ∀ e, TokenAt vocab sentence e → e ∈ es) : ∀ e, TokenAt (realVocabOf vocab) sentence e → e ∈ realEntries es := by
  rintro ⟨pos, id, len, score⟩ ⟨h1, h2, h3, t, h4, h5⟩
  unfold realVocabOf at h4
  simp only at h1 h2 h3 h4 h5
  rw [List.getElem?_map] at h4
  cases hv : vocab[id]? with
  | none => rw [hv] at h4; simp at h4
  | some x =>
    rw [hv] at h4
    simp only [Option.map_some, Option.some.injEq] at h4
    subst h4
    have := h ⟨pos, id, len, x.score⟩ ⟨h1, h2, lastIndex_of_real h3, x, hv, rfl⟩
    exact List.mem_map.2 ⟨_, this, by rw [← h5]⟩

theorem noDuplicates_real {vocab : List (ScoredToken F64)} (h : NoDuplicates vocab) : NoDuplicates (realVocabOf vocab) := by
  unfold NoDuplicates realVocabOf at *
  rw [List.map_map]
  exact h

theorem nonempty_real {vocab : List (ScoredToken F64)} (h : ∀ t ∈ vocab, t.value ≠ []) : ∀ t ∈ realVocabOf vocab, t.value ≠ [] := by
  intro t ht
  obtain ⟨x, hx, rfl⟩ := List.mem_map.1 ht
  exact h x hx

theorem expectedUses_nonneg (vocab : List (ScoredToken ℝ)) (cuts : Finset (List Nat)) (i : Nat) : 0 ≤ expectedUses vocab cuts i := by
  unfold expectedUses
  apply div_nonneg
  · exact Finset.sum_nonneg fun ids _ => mul_nonneg (Real.exp_pos _).le (Nat.cast_nonneg _)
  · exact Finset.sum_nonneg fun ids _ => (Real.exp_pos _).le

namespace Pruner
variable [Elementary]

/-- The error of one `log_sum_exp` on pieces of at most `L` bytes with at most `N` nodes. -/
noncomputable def pieceError (ε η : ℝ) (L N : Nat) : ℝ := ε + 2 * η + (L * (64 + Real.log N) + 320) / 2 ^ 53

omit [Elementary] in
theorem pieceError_mono {ε η : ℝ} (hε : 0 ≤ ε) (hη : 0 ≤ η) {L N n k : Nat} (hn : n ≤ L) (hk : k + 2 ≤ N) :
    0 ≤ ε + 2 * η + (n * (64 + Real.log (k + 2)) + 320) / 2 ^ 53 ∧
    ε + 2 * η + (n * (64 + Real.log (k + 2)) + 320) / 2 ^ 53 ≤ pieceError ε η L N := by
  have h1 : (n : ℝ) ≤ L := by exact_mod_cast hn
  have h2 : (k : ℝ) + 2 ≤ N := by exact_mod_cast hk
  have h3 : (0 : ℝ) ≤ k := Nat.cast_nonneg _
  have h4 : (0 : ℝ) ≤ n := Nat.cast_nonneg _
  have h5 : 0 ≤ Real.log ((k : ℝ) + 2) := Real.log_nonneg (by linarith)
  have h6 : Real.log ((k : ℝ) + 2) ≤ Real.log N := Real.log_le_log (by linarith) h2
  refine ⟨by positivity, ?_⟩
  unfold pieceError
  have : ((n : ℝ) * (64 + Real.log (k + 2)) + 320) / 2 ^ 53 ≤ (L * (64 + Real.log N) + 320) / 2 ^ 53 := by
    apply div_le_div_of_nonneg_right _ (by positivity)
    have := mul_le_mul h1 (by linarith : 64 + Real.log ((k : ℝ) + 2) ≤ 64 + Real.log N) (by linarith) (by linarith)
    linarith
  linarith

/-- Between the states `st` and `st'`, every count has grown by `U i` up to the relative error `r` and the absolute error `a`. -/
def Tracks (U : Nat → ℝ) (r a : ℝ) (st st' : EState F64) : Prop :=
  ∀ i old, st.expected[i]? = some old → ∃ new, st'.expected[i]? = some new ∧ |real new - (real old + U i)| ≤ r * U i + a

omit [Elementary] in
theorem tracks_refl (r : ℝ) (st : EState F64) : Tracks (fun _ => 0) r 0 st st := by
  intro i old h
  exact ⟨old, h, by simp⟩

omit [Elementary] in
theorem Tracks.trans {U V : Nat → ℝ} {r a b : ℝ} {st₁ st₂ st₃ : EState F64} (h : Tracks U r a st₁ st₂) (h' : Tracks V r b st₂ st₃) :
    Tracks (fun i => U i + V i) r (a + b) st₁ st₃ := by
  intro i old ho
  obtain ⟨x, h1, h2⟩ := h i old ho
  obtain ⟨y, h3, h4⟩ := h' i x h1
  refine ⟨y, h3, ?_⟩
  obtain ⟨a1, a2⟩ := abs_le.1 h2
  obtain ⟨b1, b2⟩ := abs_le.1 h4
  rw [abs_le]
  constructor <;> linarith

/-- What the theorems below assume. -/
structure Setting (ε η : ℝ) (vocab : List (ScoredToken F64)) (cuts : List UInt8 → Finset (List Nat)) (dropout : F64) (M : Nat) : Prop where
  ln : LnWithin ε
  exp : ExpWithin η
  lnBound : ε ≤ (1 / 2) ^ 40
  expBound : η ≤ (1 / 2) ^ 40
  nodup : NoDuplicates vocab
  nonempty : ∀ t ∈ vocab, t.value ≠ []
  scores : ∀ t ∈ vocab, Spec.Finite t.score ∧ |real t.score| ≤ 64
  lengths : ∀ t ∈ vocab, t.value.length ≤ M
  bound : M ≤ 256
  cuts : ∀ bs, AllCuts (realVocabOf vocab) bs (cuts bs)
  dropout : F64.lt (F64.num false 0) dropout = false

theorem eSnippet_tracks {ε η : ℝ} {vocab : List (ScoredToken F64)} {cuts : List UInt8 → Finset (List Nat)} {dropout : F64} {M : Nat}
    (hs : Setting ε η vocab cuts dropout M) (rnd : Nat → F64) (st st' : EState F64) (B : Nat) (hst : Bounded vocab B st) (hB : B ≤ 2 ^ 40)
    (p : List UInt8) (hmax : p.length ≤ maxSampleLength) (hb : BytesCovered vocab p) {L : Nat} (hL : p.length ≤ L)
    (h : eSnippet (Model.from_ vocab) dropout rnd st p = .ok st') {N : Nat} (hN : N = L * M + 2) {B' : Nat} (hB' : B ≤ B') :
    Tracks (expectedUses (realVocabOf vocab) (cuts p)) (12 * (N * pieceError ε η L N)) (N * (η + (4 * B' + 2 * N) / 2 ^ 53)) st st' := by
  obtain ⟨hist, hl, hex⟩ := hst
  obtain ⟨pool', hfrom, _⟩ := from_clean st.lattice p (history_clean hist)
  obtain ⟨es, k, hpop, hT, hd, hone, hall⟩ := C33_populate vocab p dropout (fun i => rnd (st.draws + i))
  obtain ⟨hi, hg, hde, hid⟩ := noGaps_of_bytes hb hT hone
  have hi' := inside_real hi
  obtain ⟨segs, hsegs⟩ := segmentations_exist p.length (realEntries es) hi'
  have hT' := tokenAt_real hT
  have hd' := pairwise_real hd
  have hn : p.length ≤ 81920 := hmax
  have htok : ∀ e ∈ es, ∃ t ∈ vocab, t.value.length = e.len ∧ t.score = e.score := by
    intro e he
    obtain ⟨h1, h2, ⟨⟨t, ht, hv⟩, _⟩, u, hu, hs⟩ := hT e he
    rw [ht] at hu
    cases hu
    refine ⟨t, List.mem_of_getElem? ht, ?_, hs⟩
    rw [hv, List.length_take, List.length_drop]
    omega
  have hesM : es.length ≤ p.length * M := by
    apply entries_le hd
    intro e he
    obtain ⟨h1, h2, _⟩ := hT e he
    obtain ⟨t, ht, h3, _⟩ := htok e he
    have := hs.lengths t ht
    exact ⟨by omega, h1, by omega⟩
  have hes : es.length ≤ p.length * 256 := hesM.trans (Nat.mul_le_mul_left _ hs.bound)
  have hε0 := F64.lnWithin_nonneg hs.ln
  have hη0 := F64.expWithin_nonneg hs.exp
  have hsmall := piece_delta hn hes hs.lnBound hs.expBound hε0 hη0
  have h8 : ((1 : ℝ) / 2) ^ 40 ≤ 1 / 8 := by norm_num
  have hBR : (B : ℝ) ≤ 2 ^ 40 := by exact_mod_cast hB
  obtain ⟨ex', z, hm, hzf, hz, hl', hinc⟩ := C36_marginal_doubles ε η hs.ln hs.exp (hs.lnBound.trans h8) (hs.expBound.trans h8) st.pool pool'
    st.lattice _ _ hist p es hfrom hi (insertAll p es hi) hg hde 64 (by norm_num)
    (fun e he => by
      obtain ⟨t, ht, _, h4⟩ := htok e he
      rw [← h4]
      exact hs.scores t ht) segs hsegs st.expected (by rw [hl]; exact hid) (4 * B) (by linarith) hex (es.length + 2) _ rfl rfl
    (hsmall.trans (by norm_num))
  have hst' : st'.expected = ex' := by
    unfold eSnippet at h
    rw [hfrom] at h
    simp only [res_bind_ok] at h
    rw [hpop] at h
    simp only [res_bind_ok] at h
    rw [hm] at h
    simp only [res_bind_ok] at h
    by_cases hz : TrainOps.isNormal z = true
    · rw [hz] at h
      cases h
      rfl
    · rw [Bool.eq_false_iff.2 hz] at h
      cases h
  have hk : es.length + 2 ≤ N := by
    rw [hN]
    have := Nat.mul_le_mul_right M hL
    omega
  obtain ⟨d0, d1⟩ := pieceError_mono hε0 hη0 hL hk
  intro i old ho
  obtain ⟨new, h1, h2, h3⟩ := hinc i old ho
  refine ⟨new, by rw [hst']; exact h1, ?_⟩
  rw [← expectedCount_cuts (noDuplicates_real hs.nodup) (nonempty_real hs.nonempty) hT' hd' (all_real (hall hs.dropout)) hsegs (hs.cuts p)]
  have hc := expectedCount_nonneg (es := realEntries es) segs i
  generalize expectedCount (realEntries es) segs i = c at *
  generalize ε + 2 * η + (p.length * (64 + Real.log (es.length + 2)) + 320) / 2 ^ 53 = δ at *
  generalize pieceError ε η L N = δ' at *
  have hkR : (es.length : ℝ) + 2 ≤ N := by exact_mod_cast hk
  have hk0 : (0 : ℝ) ≤ es.length := Nat.cast_nonneg _
  have hB'R : (B : ℝ) ≤ B' := by exact_mod_cast hB'
  have hB0 : (0 : ℝ) ≤ B := Nat.cast_nonneg _
  refine h3.trans (add_le_add ?_ ?_)
  · apply mul_le_mul_of_nonneg_right _ hc
    have := mul_le_mul hkR d1 d0 (by linarith)
    linarith
  · refine mul_le_mul hkR ?_ (by positivity) (by linarith)
    have : (4 * (B : ℝ) + 2 * (es.length + 2)) / 2 ^ 53 ≤ (4 * B' + 2 * N) / 2 ^ 53 := by
      apply div_le_div_of_nonneg_right _ (by positivity)
      linarith
    linarith

theorem ePieces_tracks {ε η : ℝ} {vocab : List (ScoredToken F64)} {cuts : List UInt8 → Finset (List Nat)} {dropout : F64} {M : Nat}
    (hs : Setting ε η vocab cuts dropout M) (rnd : Nat → F64) {L N T : Nat} (hN : N = L * M + 2) (hT : T ≤ 2 ^ 40) :
    ∀ (ps : List (List UInt8)) (B : Nat) (st st' : EState F64), Bounded vocab B st → B + ps.flatten.length ≤ T →
    (∀ p ∈ ps, p ≠ [] ∧ p.length ≤ maxSampleLength ∧ BytesCovered vocab p) → (∀ p ∈ ps, p.length ≤ L) →
    ps.foldlM (eSnippet (Model.from_ vocab) dropout rnd) st = .ok st' →
    Tracks (fun i => (ps.map fun p => expectedUses (realVocabOf vocab) (cuts p) i).sum) (12 * (N * pieceError ε η L N))
      (ps.length * (N * (η + (4 * T + 2 * N) / 2 ^ 53))) st st' := by
  intro ps
  induction ps with
  | nil =>
    intro B st st' _ _ _ _ h
    cases h
    simpa using tracks_refl _ st
  | cons p ps ih =>
    intro B st st' hst hB hps hL h
    rw [List.flatten_cons, List.length_append] at hB
    obtain ⟨_, h4, h5⟩ := hps p (List.mem_cons_self ..)
    rw [List.foldlM_cons] at h
    cases hst₁ : eSnippet (Model.from_ vocab) dropout rnd st p with
    | error e => rw [hst₁] at h; cases h
    | ok st₁ =>
      rw [hst₁] at h
      have hlen : ∀ t ∈ vocab, t.value.length ≤ 256 := fun t ht => (hs.lengths t ht).trans hs.bound
      have hb₁ : Bounded vocab (B + p.length) st₁ := by
        have := (ePieces_doubles hs.ln hs.exp hs.lnBound hs.expBound hs.scores hlen dropout rnd [p] B st hst (by simpa using by omega)
          (fun q hq => hps q (by rw [List.mem_singleton.1 hq]; exact List.mem_cons_self ..))).2 st₁ (by
            rw [List.foldlM_cons, hst₁]; rfl)
        simpa using this
      have t1 := eSnippet_tracks hs rnd st st₁ B hst (by omega) p h4 h5 (hL p (List.mem_cons_self ..)) hst₁ hN (B' := T) (by omega)
      have t2 := ih (B + p.length) st₁ st' hb₁ (by omega) (fun q hq => hps q (List.mem_cons_of_mem _ hq))
        (fun q hq => hL q (List.mem_cons_of_mem _ hq)) h
      have := t1.trans t2
      rw [List.length_cons, Nat.cast_add, Nat.cast_one, add_mul, one_mul, add_comm]
      simpa only [List.map_cons, List.sum_cons] using this

/-- The expected uses of a token in a sample, and the number of pieces. -/
noncomputable def usesIn (vocab : List (ScoredToken F64)) (cuts : List UInt8 → Finset (List Nat)) (i : Nat) (s : Str) : ℝ :=
  ((Parallel.chunks maxSampleLength (enc s)).map fun p => expectedUses (realVocabOf vocab) (cuts p) i).sum

def piecesIn (s : Str) : Nat := (Parallel.chunks maxSampleLength (enc s)).length

theorem eChunk_tracks {ε η : ℝ} {vocab : List (ScoredToken F64)} {cuts : List UInt8 → Finset (List Nat)} {dropout : F64} {M : Nat}
    (hs : Setting ε η vocab cuts dropout M) (rnd : Nat → F64) {L N T : Nat} (hN : N = L * M + 2) (hT : T ≤ 2 ^ 40) :
    ∀ (chunk : List Str) (B : Nat) (st st' : EState F64), Bounded vocab B st → B + bytesOf chunk ≤ T →
    (∀ s ∈ chunk, BytesCovered vocab (enc s)) → (∀ s ∈ chunk, ∀ p ∈ Parallel.chunks maxSampleLength (enc s), p.length ≤ L) →
    eChunk (Model.from_ vocab) dropout rnd chunk st = .ok st' →
    Tracks (fun i => (chunk.map (usesIn vocab cuts i)).sum) (12 * (N * pieceError ε η L N))
      (((chunk.map piecesIn).sum : Nat) * (N * (η + (4 * T + 2 * N) / 2 ^ 53))) st st' := by
  intro chunk
  induction chunk with
  | nil =>
    intro B st st' _ _ _ _ h
    cases h
    simpa using tracks_refl _ st
  | cons s chunk ih =>
    intro B st st' hst hB hcov hL h
    have hfl := Parallel.chunks_flatten maxSampleLength (by decide) (enc s)
    have hcons : bytesOf (s :: chunk) = (enc s).length + bytesOf chunk := by
      unfold bytesOf
      rw [List.map_cons, List.sum_cons]
    rw [hcons] at hB
    have hch : ∀ p ∈ Parallel.chunks maxSampleLength (enc s), p ≠ [] ∧ p.length ≤ maxSampleLength ∧ BytesCovered vocab p := by
      intro p hp'
      obtain ⟨h3, h4⟩ := Parallel.chunks_ne maxSampleLength (by decide) (enc s) p hp'
      refine ⟨h3, h4, fun b hb => hcov s (List.mem_cons_self ..) b ?_⟩
      rw [← hfl]
      exact List.mem_flatten.2 ⟨p, hp', hb⟩
    have hlen : ∀ t ∈ vocab, t.value.length ≤ 256 := fun t ht => (hs.lengths t ht).trans hs.bound
    unfold eChunk at h
    rw [List.foldlM_cons] at h
    cases hst₁ : (Parallel.chunks maxSampleLength (enc s)).foldlM (eSnippet (Model.from_ vocab) dropout rnd) st with
    | error e => rw [hst₁] at h; cases h
    | ok st₁ =>
      rw [hst₁] at h
      have hb₁ := (ePieces_doubles hs.ln hs.exp hs.lnBound hs.expBound hs.scores hlen dropout rnd _ B st hst (by rw [hfl]; omega) hch).2 st₁ hst₁
      rw [hfl] at hb₁
      have t1 := ePieces_tracks hs rnd hN hT _ B st st₁ hst (by rw [hfl]; omega) hch (hL s (List.mem_cons_self ..)) hst₁
      have t2 := ih _ st₁ st' hb₁ (by omega) (fun q hq => hcov q (List.mem_cons_of_mem _ hq))
        (fun q hq => hL q (List.mem_cons_of_mem _ hq)) h
      have := t1.trans t2
      rw [List.map_cons, List.sum_cons, Nat.cast_add, add_mul]
      simp only [List.map_cons, List.sum_cons]
      exact this

omit [Elementary] in
theorem foldl_sum_err {B : ℝ} (hB : B ≤ 2 ^ 100) (hB0 : 0 ≤ B) : ∀ (xs : List F64) (a : F64), Spec.Finite a → (∀ x ∈ xs, Spec.Finite x) →
    |real a| + (xs.map fun x => |real x| + F64.u * B).sum ≤ B →
    |real (xs.foldl F64.add a) - (real a + (xs.map real).sum)| ≤ xs.length * (F64.u * B) := by
  intro xs
  induction xs with
  | nil => intro a _ _ _; simp
  | cons x xs ih =>
    intro a ha hxs hs
    rw [List.map_cons, List.sum_cons] at hs ⊢
    have hu := F64.u_pos
    have hsum0 : 0 ≤ (xs.map fun x => |real x| + F64.u * B).sum := by
      apply List.sum_nonneg
      intro y hy
      obtain ⟨x, _, rfl⟩ := List.mem_map.1 hy
      exact add_nonneg (abs_nonneg _) (mul_nonneg hu.le hB0)
    have hab := abs_add_le (real a) (real x)
    have huB := mul_nonneg hu.le hB0
    have hn := (near_self ha).add (near_self (hxs x (List.mem_cons_self ..))) (B := B) (by linarith) hB
    have h3 := hn.2
    have h2 : |real (F64.add a x)| ≤ |real a| + |real x| + F64.u * B := by
      have h4 := abs_sub_abs_le_abs_sub (real (F64.add a x)) (real a + real x)
      linarith
    have i1 := ih (F64.add a x) hn.1 (fun y hy => hxs y (List.mem_cons_of_mem _ hy)) (by linarith)
    rw [List.foldl_cons, List.length_cons, Nat.cast_add, Nat.cast_one]
    generalize real (List.foldl F64.add (F64.add a x) xs) = y at *
    generalize real (F64.add a x) = w at *
    obtain ⟨a1, a2⟩ := abs_le.1 i1
    obtain ⟨b1, b2⟩ := abs_le.1 h3
    rw [abs_le]
    constructor <;> linarith

theorem eStep_tracks {ε η : ℝ} {vocab : List (ScoredToken F64)} {cuts : List UInt8 → Finset (List Nat)} {dropout : F64} {M : Nat}
    (hs : Setting ε η vocab cuts dropout M) {samples : List Str} (hfit : FitForDoubles vocab samples) {L N : Nat} (hN : N = L * M + 2)
    (hL : ∀ s ∈ samples, ∀ p ∈ Parallel.chunks maxSampleLength (enc s), p.length ≤ L) {freqs : List F64}
    (h : EStep (Model.from_ vocab) dropout samples freqs) (i : Nat) (f : F64) (hf : freqs[i]? = some f) :
    |real f - (samples.map (usesIn vocab cuts i)).sum| ≤ 12 * (N * pieceError ε η L N) * (samples.map (usesIn vocab cuts i)).sum +
      ((((samples.map piecesIn).sum : Nat) : ℝ) + samples.length) * (N * (η + (4 * (bytesOf samples : Nat) + 2 * N) / 2 ^ 53)) := by
  obtain ⟨n, sts, hn, h1, h2, h3⟩ := eStep_fold h
  rw [Model.vocabSize, Model.from_vocab] at h2
  have hi : i < vocab.length := by rw [← h2]; exact (List.getElem?_eq_some_iff.1 hf).1
  obtain ⟨l, hl, rfl⟩ := h3 i f hf
  have hcov : ∀ s ∈ samples, BytesCovered vocab (enc s) := by
    intro s hs b hb
    obtain ⟨t, ht, e, _⟩ := hfit.covered s hs b hb
    exact ⟨t, ht, e⟩
  obtain ⟨hby, hnum⟩ := chunks_bytes n hn samples
  have hη0 := F64.expWithin_nonneg hs.exp
  generalize hr : 12 * (N * pieceError ε η L N) = r
  generalize hA : (N : ℝ) * (η + (4 * (bytesOf samples : Nat) + 2 * N) / 2 ^ 53) = A
  have hflat : (Parallel.chunks n samples).flatten = samples := Parallel.chunks_flatten n hn samples
  generalize hBd : 5 * ((bytesOf samples : Nat) : ℝ) = Bd
  have hsts : (∀ x ∈ sts.flatMap (fun st => st.expected[i]?.toList), Spec.Finite x) ∧
      (sts.flatMap (fun st => st.expected[i]?.toList)).length = (Parallel.chunks n samples).length ∧
      ((sts.flatMap (fun st => st.expected[i]?.toList)).map fun x => |real x| + F64.u * Bd).sum ≤
        4 * ((((Parallel.chunks n samples).map bytesOf).sum : Nat) : ℝ) + (((Parallel.chunks n samples).length : Nat) : ℝ) * (F64.u * Bd) ∧
      |((sts.flatMap (fun st => st.expected[i]?.toList)).map real).sum - (((Parallel.chunks n samples).flatten).map (usesIn vocab cuts i)).sum| ≤
        r * (((Parallel.chunks n samples).flatten).map (usesIn vocab cuts i)).sum +
          (((((Parallel.chunks n samples).flatten).map piecesIn).sum : Nat) : ℝ) * A := by
    have hsub : ∀ c ∈ Parallel.chunks n samples, c.Sublist samples := fun c hc => chunk_sublist hn hc
    clear hl h2 h3 hf hby hnum hflat
    generalize Parallel.chunks n samples = cs at *
    induction h1 with
    | nil => simp
    | @cons c st cs sts hc _ ih =>
      obtain ⟨i1, i2, i3, i4⟩ := ih (fun c hc => hsub c (List.mem_cons_of_mem _ hc))
      obtain ⟨rnd, hc⟩ := hc
      have hcs := hsub c (List.mem_cons_self ..)
      have hb := bytesOf_sublist hcs
      have hb' : bytesOf samples ≤ 2 ^ 40 := hfit.bytes
      have hbd := (eChunk_doubles hs.ln hs.exp hs.lnBound hs.expBound hfit.scores hfit.lengths dropout rnd c 0 _ (bounded_init vocab) (by omega)
        (fun s hs => hcov s (hcs.subset hs))).2 st hc
      rw [Nat.zero_add] at hbd
      have htr := eChunk_tracks hs rnd hN (T := bytesOf samples) hb' c 0 _ st (bounded_init vocab) (by omega)
        (fun s hs => hcov s (hcs.subset hs)) (fun s hs => hL s (hcs.subset hs)) hc
      obtain ⟨x, hx, hxe⟩ := htr i (F64.num false 0) (by
        unfold eInit
        rw [Model.vocabSize, Model.from_vocab, List.getElem?_replicate, if_pos hi]
        rfl)
      rw [zero_double.2, zero_add, hr, hA] at hxe
      have hxb := hbd.2.2 x (List.mem_of_getElem? hx)
      rw [List.flatMap_cons, hx, Option.toList_some, List.singleton_append, List.flatten_cons]
      refine ⟨?_, by simp only [List.length_cons, i2], ?_, ?_⟩
      · intro y hy
        rcases List.mem_cons.1 hy with rfl | h
        · exact hxb.1
        · exact i1 y h
      · rw [List.map_cons, List.sum_cons, List.map_cons, List.sum_cons, List.length_cons, Nat.cast_add, Nat.cast_add, Nat.cast_one]
        linarith [hxb.2]
      · rw [List.map_cons, List.sum_cons, List.map_append, List.sum_append, List.map_append, List.sum_append, Nat.cast_add]
        obtain ⟨a1, a2⟩ := abs_le.1 hxe
        obtain ⟨b1, b2⟩ := abs_le.1 i4
        rw [abs_le]
        constructor <;> linarith
  obtain ⟨a1, a0, a2, a3⟩ := hsts
  rw [hby] at a2
  rw [hflat] at a3
  rw [← (hl.map _).sum_eq] at a2 a3
  rw [← hl.length_eq] at a0
  have b1 : ((bytesOf samples : Nat) : ℝ) ≤ 2 ^ 40 := by exact_mod_cast hfit.bytes
  have b0 : (0 : ℝ) ≤ ((bytesOf samples : Nat) : ℝ) := Nat.cast_nonneg _
  have b2 : (((Parallel.chunks n samples).length : Nat) : ℝ) ≤ 2 ^ 40 := by exact_mod_cast hnum.trans hfit.number
  have b3 : (((Parallel.chunks n samples).length : Nat) : ℝ) ≤ samples.length := by exact_mod_cast hnum
  have hBd0 : 0 ≤ Bd := by rw [← hBd]; linarith
  have hu := F64.u_pos
  have hu40 : 2 ^ 40 * F64.u ≤ 1 / 8 := by unfold F64.u; norm_num
  have hus : F64.u = 1 / 2 ^ 53 := by unfold F64.u; norm_num
  obtain ⟨z1, z2⟩ := zero_double
  have hsum : |real (F64.num false 0)| + (l.map fun x => |real x| + F64.u * Bd).sum ≤ Bd := by
    rw [z2, abs_zero, zero_add]
    refine a2.trans ?_
    have h6 := mul_le_mul_of_nonneg_right b2 (mul_nonneg hu.le hBd0)
    have h7 := mul_le_mul_of_nonneg_right hu40 hBd0
    have h8 : 2 ^ 40 * (F64.u * Bd) = 2 ^ 40 * F64.u * Bd := by ring
    rw [h8] at h6
    have h9 : 4 * ((bytesOf samples : Nat) : ℝ) + 1 / 8 * Bd ≤ Bd := by
      rw [← hBd]
      linarith
    linarith
  have herr := foldl_sum_err (B := Bd) (by rw [← hBd]; norm_num; linarith) hBd0 l (F64.num false 0) z1 (fun x hx => a1 x (hl.subset hx)) hsum
  rw [z2, zero_add, a0] at herr
  have hlast : (((Parallel.chunks n samples).length : Nat) : ℝ) * (F64.u * Bd) ≤ samples.length * A := by
    refine mul_le_mul b3 ?_ (mul_nonneg hu.le hBd0) (Nat.cast_nonneg _)
    rw [← hA, ← hBd, hus]
    have hN2 : (2 : ℝ) ≤ N := by exact_mod_cast (by omega : 2 ≤ N)
    have h5 : 1 / 2 ^ 53 * (5 * ((bytesOf samples : Nat) : ℝ)) ≤ 2 * (η + (4 * ((bytesOf samples : Nat) : ℝ) + 2 * N) / 2 ^ 53) := by
      have : (0 : ℝ) ≤ (3 * ((bytesOf samples : Nat) : ℝ) + 4 * N) / 2 ^ 53 := by positivity
      have e : 2 * (η + (4 * ((bytesOf samples : Nat) : ℝ) + 2 * N) / 2 ^ 53) =
        1 / 2 ^ 53 * (5 * ((bytesOf samples : Nat) : ℝ)) + 2 * η + (3 * ((bytesOf samples : Nat) : ℝ) + 4 * N) / 2 ^ 53 := by ring
      linarith
    refine h5.trans (mul_le_mul_of_nonneg_right hN2 ?_)
    positivity
  have e1 : List.foldl ScoreOps.add ScoreOps.zero l = l.foldl F64.add (F64.num false 0) := rfl
  rw [e1]
  generalize real (l.foldl F64.add (F64.num false 0)) = y at *
  obtain ⟨c1, c2⟩ := abs_le.1 herr
  obtain ⟨d1, d2⟩ := abs_le.1 a3
  rw [abs_le]
  constructor <;> linarith

end Pruner
end Tokengeex

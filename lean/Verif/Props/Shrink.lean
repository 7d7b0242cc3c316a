import Verif.Proofs.Shrink
import Verif.Props.ReturnsF64
/-
C121: what the shrink factor of pruning does.
-/
namespace Tokengeex
open Spec ScoreOps RealOps Relation

/-- **C121** A shrink factor that is not a number of at least one, be it NaN, negative, infinite or anything less than one, asks
for fewer tokens than there are, even if it is the double next to one. -/
theorem C121_shrinks (factor : F64) (hf : IsF64 factor) (h : F64.le (F64.ofNat 1) factor = false) (size : Nat) (h1 : 0 < size)
    (h2 : size < 2 ^ 53) : Pruner.shrinkBy factor size < size := by
  have hone : F64.ofNat 1 = .num false (2 ^ 1074) := by rw [Source.ofNat_small (by decide), Nat.one_mul]
  cases factor with
  | nan => rw [Pruner.shrinkBy_nan]; exact h1
  | inf s =>
    cases s with
    | true => rw [Pruner.shrinkBy_inf h1 h2]; exact h1
    | false =>
      exfalso
      rw [hone] at h
      have : F64.le (.num false (2 ^ 1074)) (.inf false) = true := by
        rw [F64.le_true (by simp) (by simp)]
        exact (F64.key_bounds (x := .num false (2 ^ 1074)) ⟨1, 1074, by decide, by omega, by rw [Nat.one_mul]⟩).2
      rw [this] at h
      exact absurd h (by decide)
  | num s k =>
    cases s with
    | true => rw [Pruner.shrinkBy_neg h2]; exact h1
    | false =>
      refine Pruner.shrinkBy_lt h1 h2 hf ?_
      by_contra hc
      rw [hone] at h
      have : F64.le (.num false (2 ^ 1074)) (.num false k) = true := by
        rw [F64.le_true (by simp) (by simp)]
        exact Int.ofNat_le.2 (Nat.le_of_not_lt hc)
      rw [this] at h
      exact absurd h (by decide)

/-- **C121** A shrink factor of at least one asks for no fewer tokens than there are. -/
theorem C121_stays (factor : F64) (h : F64.le (F64.ofNat 1) factor = true) (size : Nat) (h2 : size < 2 ^ 53) :
    size ≤ Pruner.shrinkBy factor size := by
  have hone : F64.ofNat 1 = .num false (2 ^ 1074) := by rw [Source.ofNat_small (by decide), Nat.one_mul]
  rcases Nat.eq_zero_or_pos size with rfl | hpos
  · omega
  have hlim : ¬ ((2 ^ 1074 : Nat) : Int) ≤ -(F64.limit : Int) := by
    have := F64.limit_pos
    have : 0 < 2 ^ 1074 := Nat.pow_pos (by omega)
    generalize 2 ^ 1074 = P at this
    omega
  have hneg : ∀ k : Nat, ¬ ((2 ^ 1074 : Nat) : Int) ≤ -(k : Int) := by
    intro k
    have : 0 < 2 ^ 1074 := Nat.pow_pos (by omega)
    generalize 2 ^ 1074 = P at this
    omega
  rw [hone] at h
  cases factor with
  | nan => exact absurd h (by simp [F64.le])
  | inf s =>
    rw [F64.le_true (by simp) (by simp)] at h
    cases s with
    | true => exact absurd h hlim
    | false => rw [Pruner.shrinkBy_inf hpos h2, if_neg (by decide)]; omega
  | num s k =>
    rw [F64.le_true (by simp) (by simp)] at h
    cases s with
    | true => exact absurd h (hneg k)
    | false => exact Pruner.le_shrinkBy h2 (Int.ofNat_le.1 h)

/-- **C121** With the shrink factor `0.8`, the one that is used if none is given, a pass asks for exactly four fifths of the tokens,
rounded down, although neither `0.8` nor the product is a double. -/
theorem C121_default (size : Nat) (h : size < 2 ^ 32) :
    Pruner.shrinkBy (F64.div (F64.ofNat 8) (F64.ofNat 10)) size = 4 * size / 5 :=
  Pruner.shrinkBy_fourFifths h

section
variable {F : Type} [TrainOps F]

/-- **C121** Whatever the arithmetic, as long as zero is at most zero: a prune step that asks for no fewer tokens than there are
drops no token that is protected or occurs in the encodings of the samples. -/
theorem C121_keeps (hz : ScoreOps.le (ScoreOps.zero : F) ScoreOps.zero = true) (c : Pruner F) (std : Pruner.Std F)
    (hstd : StdLaws std) (samples : List Str) (vocab : List (ScoredToken F)) (hsize : vocab.length ≤ 4294967294)
    (hstays : vocab.length ≤ c.shrink vocab.length) (idss : List (List Nat))
    (hids : samples.mapM (fun s => (Model.from_ vocab).encode s zero (fun _ => zero)) = .ok idss) (m' : Model F)
    (h : Pruner.PruneStep c std samples (Model.from_ vocab) m') :
    ∃ w ids, m' = Model.from_ w ∧ ids.Nodup ∧ EntriesAt vocab ids w ∧
      ∀ i t, vocab[i]? = some t → t.keep = true ∨ 0 < tokenCount idss i → i ∈ ids := by
  obtain ⟨rnd, freqs, w, fuel₀, ⟨val, hval, hfr⟩, hw, rfl⟩ := h
  have hids' : samples.mapM (fun s => (Model.from_ vocab).encode s zero rnd) = .ok idss := by
    rw [← hids]
    congr 1
    funext s
    exact C06_deterministic vocab s _ _ _ hz
  have hget : ∀ i t, vocab[i]? = some t → freqs[i]? = some (tokenCount idss i) := by
    intro i t ht
    have hi := (List.getElem?_eq_some_iff.1 ht).1
    rw [hfr, Model.vocabSize, Model.from_vocab, List.getElem?_map, List.getElem?_range hi, Option.map_some,
      C50_tokens (Model.from_ vocab) rnd samples idss hids' val hval i (by rw [Model.vocabSize, Model.from_vocab]; exact hi)]
  obtain ⟨alts, f1, vs, ids, _, halts, h1, h2, h3, h4, h5, _, _, _, h9, _⟩ := Pruner.pruneVocab_spec hstd hsize hw
  refine ⟨w, ids, rfl, h3, h4, ?_⟩
  intro i t ht hor
  have hlt := (List.getElem?_eq_some_iff.1 ht).1
  have ha : i < alts.length := by rw [← halts.length_eq]; exact hlt
  have hs : i < vs.length := by omega
  have hj := h2 i t _ _ ht (List.getElem?_eq_getElem ha) (List.getElem?_eq_getElem hs)
  generalize hv : vs[i] = v at hj
  have hvi : vs[i]? = some v := by rw [List.getElem?_eq_getElem hs, hv]
  cases v with
  | keep => exact h5 i hvi
  | candidate l =>
    by_contra hn
    have hl := h9 i l hvi hn
    have : ids.length + 1 ≤ vocab.length := by
      have := nodup_length_le (ids := i :: ids) (List.nodup_cons.2 ⟨hn, h3⟩) (n := vocab.length) (by
        intro j hj'
        rcases List.mem_cons.1 hj' with rfl | hj'
        · exact hlt
        · exact entriesAt_lt h4 hj')
      simpa using this
    rw [entriesAt_length h4] at this
    omega
  | drop =>
    exfalso
    rw [Pruner.judge] at hj
    by_cases hk : t.keep = true
    · rw [if_pos hk] at hj; simp at hj
    · rw [if_neg hk] at hj
      have hc : 0 < tokenCount idss i := by
        rcases hor with h | h
        · exact absurd h hk
        · exact h
      have hidx : idx freqs i = .ok (tokenCount idss i) := by rw [idx, hget i t ht]
      rw [hidx] at hj
      simp only [res_bind_ok] at hj
      rw [if_neg (by simp; omega)] at hj
      split at hj
      · simp at hj
      · rw [if_pos (by omega)] at hj
        obtain ⟨l, _, hj⟩ := bind_ok hj
        split at hj <;> simp at hj

end

variable [Elementary]

omit [Elementary] in
/-- Entries at all positions, each once, are a rearrangement. -/
theorem entriesAt_all_perm {α : Type} {vocab w : List (ScoredToken α)} {ids : List Nat} (h1 : ids.Nodup)
    (h2 : EntriesAt vocab ids w) (h3 : ∀ i, i < vocab.length → i ∈ ids) : w.Perm vocab := by
  have hp : ids.Perm (List.range vocab.length) := by
    rw [List.perm_ext_iff_of_nodup h1 List.nodup_range]
    intro i
    rw [List.mem_range]
    exact ⟨fun h => entriesAt_lt h2 h, h3 i⟩
  have h4 : (ids.map (vocab[·]?)).Perm ((List.range vocab.length).map (vocab[·]?)) := hp.map _
  have h5 : (List.range vocab.length).map (vocab[·]?) = vocab.map some := by
    apply List.ext_getElem?
    intro i
    rw [List.getElem?_map, List.getElem?_map]
    by_cases hi : i < vocab.length
    · rw [List.getElem?_range hi, List.getElem?_eq_getElem hi]; simp [hi]
    · rw [List.getElem?_eq_none (by simpa using hi), List.getElem?_eq_none (by simpa using hi)]; rfl
  unfold EntriesAt at h2
  rw [h2, h5] at h4
  have := h4.filterMap id
  simpa [List.filterMap_map] using this

/-- With a shrink factor of at least one, pruning `a` and `aa` only ever reorders them. -/
theorem clear_reordered (std : Pruner.Std F64) (hstd : StdLaws std) (factor : F64) (h : F64.le (F64.ofNat 1) factor = true)
    (dropout : F64) : ∀ m, ReflTransGen (Pruner.Pass (Pruner.ofFactor 1 factor 0 dropout) std [['a', 'a']]) (Model.from_ clearVocab) m →
      ∃ v, m = Model.from_ v ∧ v.Perm clearVocab := by
  intro m hr
  induction hr with
  | refl => exact ⟨_, rfl, .refl _⟩
  | tail _ hp ih =>
    obtain ⟨v, rfl, hv⟩ := ih
    obtain ⟨_, m₁, h2, h3⟩ := hp
    cases h2
    have hlen : v.length = 2 := hv.length_eq
    have hmem := List.mem_permutations.2 hv
    have hstays := C121_stays factor h v.length (by omega)
    have key : ∃ idss, [['a', 'a']].mapM (fun s => (Model.from_ v).encode s (.num false 0) (fun _ => .num false 0)) = .ok idss ∧
        ∀ i t, v[i]? = some t → t.keep = true ∨ 0 < tokenCount idss i := by
      simp only [clearVocab, List.permutations, List.permutationsAux, List.permutationsAux.rec, List.permutationsAux2,
        List.foldr_cons, List.foldr_nil, List.mem_cons, List.not_mem_nil, or_false, id_eq] at hmem
      rcases hmem with rfl | rfl
      · refine ⟨[[1]], clear_encode, ?_⟩
        intro i t ht
        match i, ht with
        | 0, ht => left; simp at ht; rw [← ht]
        | 1, ht => right; decide
        | i + 2, ht => simp at ht
      · refine ⟨[[0]], by decide +kernel, ?_⟩
        intro i t ht
        match i, ht with
        | 0, ht => right; decide
        | 1, ht => left; simp at ht; rw [← ht]
        | i + 2, ht => simp at ht
    obtain ⟨idss, hids, hall⟩ := key
    have hz : F64.le (.num false 0) (.num false 0) = true := by decide
    obtain ⟨w, ids, rfl, k1, k2, k3⟩ := C121_keeps hz _ std hstd [['a', 'a']] v (by omega) hstays idss hids _ h3
    refine ⟨w, rfl, (entriesAt_all_perm k1 k2 ?_).trans hv⟩
    intro i hi
    exact k3 i _ (List.getElem?_eq_getElem hi) (hall i _ (List.getElem?_eq_getElem hi))

/-- **C121** (why the factor matters) With a shrink factor of at least one, pruning `a`, which is protected, and `aa` to one token
with the sample `"aa"` and without EM iterations never returns, although there are no more protected tokens than asked for. -/
theorem C121_never (std : Pruner.Std F64) (hstd : StdLaws std) (factor : F64) (h : F64.le (F64.ofNat 1) factor = true)
    (dropout : F64) (m' : Model F64) :
    ¬ Pruner.Returns (Pruner.ofFactor 1 factor 0 dropout) std [['a', 'a']]
      (Model.from_ [⟨[97], .num true (2 ^ 1074), true⟩, ⟨[97, 97], .num true (2 ^ 1074), false⟩]) m' := by
  rintro ⟨h1, h2⟩
  obtain ⟨v, rfl, hv⟩ := clear_reordered std hstd factor h dropout m' h1
  rw [Model.vocabSize, Model.from_vocab, hv.length_eq] at h2
  exact h2 (show 1 < 2 by decide)

omit [Elementary] in
/-- `aa` and `a`, in the other order. -/
theorem swapped_losses : ClearLosses 1 [⟨[97, 97], .num true (2 ^ 1074), false⟩, ⟨[97], .num true (2 ^ 1074), true⟩] (tokenCount [[0]]) := by
  refine ⟨by norm_num, ?_⟩
  intro i t alt ht hk hc hre
  have hi := (List.getElem?_eq_some_iff.1 ht).1
  have h1 : i = 0 := by
    have : i = 0 ∨ i = 1 := by simp at hi; omega
    rcases this with rfl | rfl
    · rfl
    · simp [tokenCount] at hc
  subst h1
  simp only [List.getElem?_cons_zero, Option.some.injEq] at ht
  subst ht
  obtain ⟨l1, l2⟩ := resegments_length hre
  obtain ⟨l3, ⟨toks, e1, e2⟩, _⟩ := hre
  simp only [List.length_cons, List.length_nil] at l1
  obtain ⟨x, y, rfl⟩ := List.length_eq_two.1 (show alt.length = 2 by omega)
  have hxy : x = 1 ∧ y = 1 := by
    have hx := l2 x (by simp)
    have hy := l2 y (by simp)
    simp only [List.length_cons, List.length_nil] at hx hy
    have hx' : x = 0 ∨ x = 1 := by omega
    have hy' : y = 0 ∨ y = 1 := by omega
    match toks, e1 with
    | [t1, t2], e1 =>
      simp only [List.map_cons, List.map_nil, List.cons.injEq, and_true] at e1
      have e3 := congrArg List.length e2
      simp only [List.map_cons, List.map_nil, List.flatten_cons, List.flatten_nil, List.length_append, List.length_nil, List.length_cons] at e3
      rcases hx' with rfl | rfl <;> rcases hy' with rfl | rfl <;>
        simp only [List.getElem?_cons_succ, List.getElem?_cons_zero, Option.some.injEq] at e1 <;>
        obtain ⟨rfl, rfl⟩ := e1 <;> simp at e3 ⊢
    | [], e1 => simp at e1
    | [_], e1 => simp at e1
    | _ :: _ :: _ :: _, e1 => simp at e1
  obtain ⟨rfl, rfl⟩ := hxy
  have hS : ((List.range 2).map (tokenCount [[0]])).sum = 1 := by decide
  have hc0 : tokenCount [[0]] 0 = 1 := by decide
  have hc1 : tokenCount [[0]] 1 = 0 := by decide
  simp only [List.length_cons, List.length_nil, Nat.zero_add, Nat.reduceAdd]
  refine ⟨by simp, by rw [hS, hc0]; norm_num, ?_⟩
  unfold pruneLoss
  simp only [hS, hc1, hc0, List.map_cons, List.map_nil, List.sum_cons, List.sum_nil]
  have hl : (1 / 2 : ℝ) ≤ Real.log 2 := by
    have := Real.one_sub_inv_le_log_of_pos (show (0 : ℝ) < 2 by norm_num)
    linarith
  have e : ((1 : ℕ) : ℝ) + ((1 : ℕ) : ℝ) * ((2 - 1 : ℕ) : ℝ) = 2 := by norm_num
  rw [e]
  norm_num
  rw [abs_of_nonneg (by linarith)]
  linarith

/-- **C121** (why the factor matters) That run does not end in a panic either: with a logarithm that errs by at most 2⁻⁴⁰, whatever
passes it has made, it can make another, so it goes on for ever. -/
theorem C121_forever {ε : ℝ} (hln : LnWithin ε) (hε : ε ≤ (1 / 2) ^ 40) (std : Pruner.Std F64) (hstd : StdLaws std) (factor : F64)
    (h : F64.le (F64.ofNat 1) factor = true) (dropout : F64) :
    (∀ m, ReflTransGen (Pruner.Pass (Pruner.ofFactor 1 factor 0 dropout) std [['a', 'a']])
        (Model.from_ [⟨[97], .num true (2 ^ 1074), true⟩, ⟨[97, 97], .num true (2 ^ 1074), false⟩]) m →
      ∃ m', Pruner.Pass (Pruner.ofFactor 1 factor 0 dropout) std [['a', 'a']] m m') ∧
    ∃ run : Nat → Model F64, run 0 = Model.from_ [⟨[97], .num true (2 ^ 1074), true⟩, ⟨[97, 97], .num true (2 ^ 1074), false⟩] ∧
      ∀ n, Pruner.Pass (Pruner.ofFactor 1 factor 0 dropout) std [['a', 'a']] (run n) (run (n + 1)) := by
  classical
  have hnext : ∀ m, ReflTransGen (Pruner.Pass (Pruner.ofFactor 1 factor 0 dropout) std [['a', 'a']]) (Model.from_ clearVocab) m →
      ∃ m', Pruner.Pass (Pruner.ofFactor 1 factor 0 dropout) std [['a', 'a']] m m' := by
    intro m hr
    obtain ⟨v, rfl, hv⟩ := clear_reordered std hstd factor h dropout m hr
    have hlen : v.length = 2 := hv.length_eq
    have hmem := List.mem_permutations.2 hv
    have key : ∃ idss, [['a', 'a']].mapM (fun s => (Model.from_ v).encode s (.num false 0) (fun _ => .num false 0)) = .ok idss ∧
        ClearLosses 1 v (tokenCount idss) := by
      simp only [clearVocab, List.permutations, List.permutationsAux, List.permutationsAux.rec, List.permutationsAux2,
        List.foldr_cons, List.foldr_nil, List.mem_cons, List.not_mem_nil, or_false, id_eq] at hmem
      rcases hmem with rfl | rfl
      · exact ⟨[[1]], clear_encode, clear_losses⟩
      · exact ⟨[[0]], by decide +kernel, swapped_losses⟩
    obtain ⟨idss, hids, hclear⟩ := key
    obtain ⟨freqs, hf⟩ := Pruner.frequencies_exist v (fun _ => F64.nan) [['a', 'a']]
      (fun s hs => C04_dropout_total _ s _ _ (fun x hx => by
        rw [List.mem_singleton.1 hs] at hx
        have hall : ∀ x ∈ enc ['a', 'a'], x = 97 := by decide
        rw [hall x hx]
        exact ⟨⟨[97], .num true (2 ^ 1074), true⟩, hv.mem_iff.2 (by simp [clearVocab]), rfl⟩))
    obtain ⟨w, fuel₀, hw⟩ := C104_doubles_partial hln hε (Pruner.ofFactor 1 factor 0 dropout) std hstd [['a', 'a']] v (by omega)
      (by
        intro t ht
        have ht := hv.mem_iff.1 ht
        simp only [clearVocab, List.mem_cons, List.not_mem_nil, or_false] at ht
        rcases ht with rfl | rfl <;> simp)
      idss hids hclear (fun _ => F64.nan) freqs hf
    refine ⟨Model.from_ w, ?_, Model.from_ v, .zero _, ⟨_, freqs, w, fuel₀, hf, hw, rfl⟩⟩
    rw [Model.vocabSize, Model.from_vocab, hlen]
    exact (show 1 < 2 by decide)
  refine ⟨hnext, ?_⟩
  let R := {m // ReflTransGen (Pruner.Pass (Pruner.ofFactor 1 factor 0 dropout) std [['a', 'a']]) (Model.from_ clearVocab) m}
  let next : R → R := fun m => ⟨Classical.choose (hnext m.1 m.2), m.2.tail (Classical.choose_spec (hnext m.1 m.2))⟩
  refine ⟨fun n => (next^[n] ⟨_, .refl⟩).1, rfl, ?_⟩
  intro n
  show Pruner.Pass _ _ _ _ (next^[n + 1] ⟨_, .refl⟩).1
  rw [Function.iterate_succ_apply']
  exact Classical.choose_spec (hnext _ (next^[n] ⟨_, .refl⟩).2)

open Classical in
/-- **C121** With the default factor the number of passes is logarithmic.  With doubles, from a vocabulary and corpus fit for them, in
which no two tokens are equal, none is empty and every byte of a token is a protected token, and if no vocabulary that is still
too large has more forced tokens than the prune step may keep: if there are `n + 1` passes, then `(5/4)ⁿ` times a vocabulary that
is too large by one is no larger than the vocabulary. -/
theorem C121_passes {ε η : ℝ} (hln : LnWithin ε) (hexp : ExpWithin η) (hε : ε ≤ (1 / 2) ^ 40) (hη : η ≤ (1 / 2) ^ 40)
    (vocabSize emSubiters : Nat) (dropout : F64) (std : Pruner.Std F64) (hstd : StdLaws std) (hheap : std.heap = agendaHeap F64)
    (samples : List Str) (vocab : List (ScoredToken F64)) (hfit : FitForDoubles vocab samples) (hnd : NoDuplicates vocab)
    (hne : ∀ t ∈ vocab, t.value ≠ []) (hbytes : ∀ t ∈ vocab, BytesKept vocab t.value) (c : Pruner F64)
    (hc : c = Pruner.ofFactor vocabSize (F64.div (F64.ofNat 8) (F64.ofNat 10)) emSubiters dropout)
    (hforced : ∀ m w, ReflTransGen (Pruner.Pass c std samples) (Model.from_ vocab) m → vocabSize < m.vocabSize →
      Pruner.EMSteps c samples emSubiters m (Model.from_ w) →
      w.countP (fun t => decide (Forced w t)) ≤ max (4 * w.length / 5) vocabSize) :
    ∀ n m', PassesOf (Pruner.Pass c std samples) (n + 1) (Model.from_ vocab) m' →
      5 ^ n * (vocabSize + 1) ≤ 4 ^ n * vocab.length := by
  subst hc
  have hwf : ∀ w, PrunedTo vocab w → WellFormed w := by
    intro w hw
    refine ⟨prunedTo_noDuplicates hw hnd, ?_, ?_⟩
    · intro u hu
      obtain ⟨t, h1, h2, _⟩ := prunedTo_value hw hu
      rw [← h2]
      exact hne t h1
    · intro u hu b hb
      obtain ⟨t, h1, h2, _⟩ := prunedTo_value hw hu
      rw [← h2] at hb
      obtain ⟨x, hx, e, _⟩ := prunedTo_bytesKept hw (hbytes t h1) b hb
      exact ⟨x, hx, e⟩
  have hstep : ∀ m m', ReflTransGen (Pruner.Pass (Pruner.ofFactor vocabSize (F64.div (F64.ofNat 8) (F64.ofNat 10)) emSubiters dropout)
      std samples) (Model.from_ vocab) m → Pruner.Pass
      (Pruner.ofFactor vocabSize (F64.div (F64.ofNat 8) (F64.ofNat 10)) emSubiters dropout) std samples m m' →
      vocabSize < m.vocabSize ∧ (vocabSize < m'.vocabSize → 5 * m'.vocabSize ≤ 4 * m.vocabSize) := by
    intro m m' hr hp
    obtain ⟨v, rfl, hv1, hv2⟩ := Pruner.run_fit hln hexp hε hη hstd hfit hr
    obtain ⟨h1, m₁, h2, h3⟩ := hp
    obtain ⟨w, rfl, h4, h5⟩ := Pruner.emSteps_fit hln hexp hε hη h2 v rfl hv2
    have hl2 := prunedTo_length h4
    have hs := h5.size
    have hsh := C121_default w.length (by omega)
    have hle := Pruner.pruneStep_size hstd hheap (by omega) (hwf w (prunedTo_trans hv1 h4)) h5.scores h5.lengths
      (le_of_le_of_eq (hforced _ w hr h1 h2) (by rw [← hsh]; rfl)) h3
    refine ⟨h1, ?_⟩
    intro hbig
    have hle' : m'.vocabSize ≤ max (4 * w.length / 5) vocabSize := by rw [← hsh]; exact hle
    have hvs : (Model.from_ v).vocabSize = v.length := by rw [Model.vocabSize, Model.from_vocab]
    rw [hvs]
    omega
  have count : ∀ n m m', PassesOf (Pruner.Pass (Pruner.ofFactor vocabSize (F64.div (F64.ofNat 8) (F64.ofNat 10)) emSubiters dropout)
      std samples) n m m' → m = Model.from_ vocab → vocabSize < m'.vocabSize → 5 ^ n * m'.vocabSize ≤ 4 ^ n * vocab.length := by
    intro n m m' h
    induction h with
    | zero =>
      intro e _
      rw [e, Model.vocabSize, Model.from_vocab]
      omega
    | @succ n m m₁ m₂ h1 h2 ih =>
      intro e hbig
      have h3 := h1.reach
      rw [e] at h3
      obtain ⟨k1, k2⟩ := hstep _ _ h3 h2
      have k3 := ih e k1
      have k4 := k2 hbig
      calc 5 ^ (n + 1) * m₂.vocabSize = 5 ^ n * (5 * m₂.vocabSize) := by ring
        _ ≤ 5 ^ n * (4 * m₁.vocabSize) := Nat.mul_le_mul_left _ k4
        _ = 4 * (5 ^ n * m₁.vocabSize) := by ring
        _ ≤ 4 * (4 ^ n * vocab.length) := Nat.mul_le_mul_left _ k3
        _ = _ := by ring
  intro n m' h
  cases h with
  | @succ _ _ m₁ _ h1 h2 =>
    have k1 := (hstep _ _ h1.reach h2).1
    exact (Nat.mul_le_mul_left _ k1).trans (count n _ _ h1 rfl k1)

/-! ### Non-vacuity -/

omit [Elementary] in
theorem isDouble_mk {m k : Nat} (hm : m < 2 ^ 53) (hk : k ≤ 2045) : IsDouble (m * 2 ^ k) := ⟨m, k, hm, hk, rfl⟩

omit [Elementary] in
/-- The double below one shrinks, and so does `0.8`; one does not. -/
example : Pruner.shrinkBy (.num false ((2 ^ 53 - 1) * 2 ^ 1021)) 200000 < 200000 ∧
    Pruner.shrinkBy (F64.div (F64.ofNat 8) (F64.ofNat 10)) 200001 = 160000 ∧ 200000 ≤ Pruner.shrinkBy (F64.ofNat 1) 200000 := by
  have hd : IsF64 (.num false ((2 ^ 53 - 1) * 2 ^ 1021)) := isDouble_mk (by decide) (by omega)
  exact ⟨C121_shrinks _ hd (by decide +kernel) _ (by decide) (by decide),
    C121_default _ (by decide), C121_stays _ (by decide +kernel) _ (by decide)⟩

/-- The hypotheses of C49_doubles_partial and C121_passes are met with the default shrink factor: `exp` and `ln` that err by at most
2⁻⁴² exist, and with them pruning `a` and `aa` to one token with the sample `"aa"` returns, after one pass at most. -/
example : ∃ f, f = F64.div (F64.ofNat 8) (F64.ofNat 10) ∧ ∃ E : Elementary, ∃ m', @Pruner.Returns F64 (@F64.instTrainOpsOfElementary E) (Pruner.ofFactor 1 f 0 (.num false 0))
    ⟨agendaHeap F64, insertSorter _, insertSorter _⟩ [['a', 'a']] (Model.from_ clearVocab) m' ∧ m'.vocabSize ≤ 1 ∧
    ∀ n m', PassesOf (@Pruner.Pass F64 (@F64.instTrainOpsOfElementary E) (Pruner.ofFactor 1 f 0
      (.num false 0)) ⟨agendaHeap F64, insertSorter _, insertSorter _⟩ [['a', 'a']]) (n + 1) (Model.from_ clearVocab) m' →
      5 ^ n ≤ 4 ^ n := by
  classical
  obtain ⟨f, hf⟩ : ∃ f, f = F64.div (F64.ofNat 8) (F64.ofNat 10) := ⟨_, rfl⟩
  have hfour : IsF64 f := by
    rw [hf, Pruner.fourFifths]
    exact isDouble_mk (by decide) (by omega)
  have hone : F64.le (F64.ofNat 1) f = false := by rw [hf]; decide +kernel
  have htwo : Pruner.shrinkBy f 2 = 1 := by rw [hf, C121_default 2 (by decide)]
  refine ⟨f, hf, ?_⟩
  obtain ⟨E, hE, _, hX⟩ := elementary_exists
  have hstd : @StdLaws F64 _ ⟨agendaHeap F64, insertSorter _, insertSorter _⟩ :=
    ⟨⟨_, agenda_laws⟩, insertSorter_laws _, insertSorter_laws _⟩
  have hε : ((1 : ℝ) / 2) ^ 42 ≤ (1 / 2) ^ 40 := by norm_num
  have hnd := clear_nodup
  have hne := clear_nonempty
  have hby : ∀ t ∈ clearVocab, BytesKept clearVocab t.value := by
    intro t ht b hb
    have : b = 97 := by
      simp only [clearVocab, List.mem_cons, List.not_mem_nil, or_false] at ht
      rcases ht with rfl | rfl <;> simpa using hb
    rw [this]
    exact ⟨⟨[97], .num true (2 ^ 1074), true⟩, by simp [clearVocab], rfl, rfl⟩
  have hcount : clearVocab.countP (fun t => decide (Forced clearVocab t)) ≤ 1 := by
    have h2 : ¬ Forced clearVocab ⟨[97, 97], .num true (2 ^ 1074), false⟩ := by
      rintro (h | h)
      · exact absurd h (by simp)
      · exact h clear_replaceable
    have e : clearVocab = [⟨[97], .num true (2 ^ 1074), true⟩] ++ [⟨[97, 97], .num true (2 ^ 1074), false⟩] := rfl
    rw [e, List.countP_append, ← e, List.countP_singleton, List.countP_singleton]
    simp only [h2, decide_false]
    split <;> simp
  let c : Pruner F64 := Pruner.ofFactor 1 f 0 (.num false 0)
  have hwf : WellFormed clearVocab := ⟨hnd, hne, fun t ht b hb => by
    obtain ⟨x, hx, e, _⟩ := hby t ht b hb
    exact ⟨x, hx, e⟩⟩
  have hinj : ∀ v w : List (ScoredToken F64), Model.from_ v = Model.from_ w → v = w := by
    intro v w e
    have := congrArg Model.vocab e
    rwa [Model.from_vocab, Model.from_vocab] at this
  -- a vocabulary that is still too large is the first
  have honly : ∀ m, ReflTransGen (Pruner.Pass c ⟨agendaHeap F64, insertSorter _, insertSorter _⟩ [['a', 'a']]) (Model.from_ clearVocab) m →
      c.vocabSize < m.vocabSize → m = Model.from_ clearVocab := by
    intro m hr
    induction hr with
    | refl => intro _; rfl
    | tail _ h2 ih =>
      intro hlarge
      obtain ⟨k1, m₁, k2, k3⟩ := h2
      have e := ih k1
      subst e
      cases k2
      have := Pruner.pruneStep_size hstd rfl (by decide) hwf clear_fit.scores clear_fit.lengths (by
        refine hcount.trans ?_
        exact Nat.le_max_right _ _) k3
      have h3 : max (c.shrink clearVocab.length) c.vocabSize = 1 := by
        have h5 : c.shrink clearVocab.length = 1 := by
          rw [show clearVocab.length = 2 from rfl, show c.shrink = Pruner.shrinkBy f from rfl]
          exact htwo
        have h6 : c.vocabSize = 1 := rfl
        rw [h5, h6, Nat.max_self]
      have h4 : c.vocabSize = 1 := rfl
      omega
  have hemzero : ∀ m w, Pruner.EMSteps c [['a', 'a']] 0 m (Model.from_ w) → m = Model.from_ w := by
    intro m w h
    cases h
    rfl
  have hpasses := C121_passes hE hX hε hε 1 0 (.num false 0) _ hstd rfl [['a', 'a']] clearVocab clear_fit hnd hne hby c (by rw [← hf])
    (by
      intro m w hr hlarge hem
      have e := hinj _ _ ((honly m hr hlarge).symm.trans (hemzero m w hem))
      subst e
      exact hcount.trans (Nat.le_max_right _ _))
  obtain ⟨⟨m', h1⟩, h2, _⟩ := C49_doubles_partial hE hX hε hε c _ hstd rfl [['a', 'a']] clearVocab clear_fit hnd hne hby
    (by intro n h h'; exact C121_shrinks f hfour hone n (by omega) (lt_of_le_of_lt h' (by decide)))
    (by
      intro m w hr hlarge hem
      have e := hinj _ _ ((honly m hr hlarge).symm.trans (hemzero m w hem))
      subst e
      exact hcount.trans (Nat.le_max_right _ _))
    (by intro m w k _ _ hk; exact absurd hk (Nat.not_lt_zero _))
    (by
      intro m w idss hr hlarge hem hids
      have e := hinj _ _ ((honly m hr hlarge).symm.trans (hemzero m w hem))
      subst e
      have h3 := clear_encode.symm.trans hids
      injection h3 with h3
      rw [← h3]
      exact clear_losses)
  refine ⟨E, m', h1, h2 m' h1, fun n m' h => ?_⟩
  have := hpasses n m' h
  rw [show clearVocab.length = 2 from rfl] at this
  omega

/-- The hypotheses of C121_forever are met: with some logarithm that errs by at most 2⁻⁴² and the factor one, there is a run of
infinitely many passes. -/
example : ∃ E : Elementary, ∃ run : Nat → Model F64, run 0 = Model.from_ clearVocab ∧
    ∀ n, @Pruner.Pass F64 (@F64.instTrainOpsOfElementary E) (Pruner.ofFactor 1 (F64.ofNat 1) 0 (.num false 0))
      ⟨agendaHeap F64, insertSorter _, insertSorter _⟩ [['a', 'a']] (run n) (run (n + 1)) := by
  obtain ⟨E, hE, _⟩ := ln_exists
  have hstd : @StdLaws F64 _ ⟨agendaHeap F64, insertSorter _, insertSorter _⟩ := ⟨⟨_, agenda_laws⟩, insertSorter_laws _, insertSorter_laws _⟩
  have hε : ((1 : ℝ) / 2) ^ 42 ≤ (1 / 2) ^ 40 := by norm_num
  exact ⟨E, (C121_forever hE hε _ hstd (F64.ofNat 1) (by decide +kernel) (.num false 0)).2⟩

end Tokengeex

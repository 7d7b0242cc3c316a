import Verif.Proofs.WrittenScores
import Verif.Proofs.PruneFuel
import Verif.Props.Number64
import Verif.Props.MergeDefault
import Verif.Props.CliHistory
/-
C86: whether the tokenizer files that the commands write can be loaded, with doubles for scores.

`exp` and `ln` may be any functions on doubles (`Elementary`); numbers are printed and read as serde_json does.
-/
namespace Tokengeex
open Spec Cli ScoreOps RealOps F64

/-! ### Saving -/

/-- **C28** (when a saved tokenizer loads) Of all tokenizers with doubles for scores, saved in either format, exactly those
load again that have only finite scores and no special token that needs an escape in JSON. -/
theorem C28_finite {N : NumText F64} (hN : SerdeDoubles N) (vocab : List (ScoredToken F64)) (processors : List Processor)
    (specials : List Str) (ops : List (Tokenizer.Op F64)) (style : Json.Style) :
    let t := Tokenizer.build vocab processors specials ops
    (∃ u, Tokenizer.fromStr N (Json.write N style 0 t.toJson) = some u) ↔
      (∀ s ∈ t.specialTokens, ∀ c ∈ s, ¬ (c = '"' ∨ c = '\\' ∨ c.toNat < 32)) ∧ ∀ token ∈ t.model.vocab, Finite token.score := by
  intro t
  have h := (C28_loaded N hN.prints vocab processors specials ops style).1
  refine h.trans (and_congr Iff.rfl (forall₂_congr fun token _ => reread_some_iff hN _))

/-- **C86** The scores of every tokenizer that loads from a file are finite, whatever the file and whoever wrote it. -/
theorem C86_loaded {N : NumText F64} (hN : SerdeDoubles N) (fs : Files) (path : Str) (t : Tokenizer F64)
    (h : fromFile N fs path = .ok t) : ∀ token ∈ t.model.vocab, Finite token.score := fromFile_finite hN h

section
variable [Elementary]

omit [Elementary] in
theorem loads_of_revised {N : NumText F64} (hN : SerdeDoubles N) {contents : List UInt8} {t : Tokenizer F64}
    {w : List (ScoredToken F64)} (h : HoldsRevised N contents t w) (hw : ∀ token ∈ w, Finite token.score) : Loads N contents :=
  fun fs path hf => (h fs path hf).1.2 fun token ht => (reread_some_iff hN _).2 (hw token ht)

/-- **C86** (prune) What `prune` writes can be loaded, whatever the flags, the input and the texts: the command gives up
rather than write a score that is not finite. -/
theorem C86_prune (env : Env F64) (laws : EnvLaws env) (hN : SerdeDoubles env.numbers) (a : PruneArgs F64) (fs : Files)
    (contents : List UInt8) (h : Prunes env a fs contents) : Loads env.numbers contents := by
  obtain ⟨t, train, samples, m, h1, _, _, h4, rfl⟩ := h
  have hfin := fromFile_finite hN h1
  have hm : m = Model.from_ m.vocab := by
    have := h4.1
    induction this with
    | refl => exact fromFile_model h1
    | tail _ hp _ =>
      obtain ⟨_, _, _, _, _, _, _, _, _, rfl⟩ := hp
      rw [Model.from_vocab]
  have hs := Pruner.returns_scores (P := Finite) laws.std
    (fun x y h1 h2 => finite_of_isF64 isF64_add h1 h2) h4.1 hfin
  rw [hm]
  exact loads_of_revised hN (holdsRevised laws.numbers h1 m.vocab) hs

/-- **C86** (filter) What `filter` writes can be loaded, whatever the flags and the input. -/
theorem C86_filter (env : Env F64) (laws : EnvLaws env) (hN : SerdeDoubles env.numbers) (a : FilterArgs F64) (fs : Files)
    (contents : List UInt8) (h : Filters env a fs contents) : Loads env.numbers contents := by
  have h' := h
  obtain ⟨t, _, h1, _⟩ := h'
  obtain ⟨w, removed, hp, _, _, hr⟩ := C71_filter env laws a fs contents h t h1
  exact loads_of_revised hN hr fun token ht =>
    fromFile_finite hN h1 token (hp.symm.subset (List.mem_append_left _ ht))

/-- **C86** (generate) What `generate` writes can be loaded if and only if no requested special token needs an escape in
JSON: the command panics rather than write a score that is not finite. -/
theorem C86_generate (env : Env F64) (laws : EnvLaws env) (hN : SerdeDoubles env.numbers) (a : GenerateArgs F64) (fs : Files)
    (contents : List UInt8) (h : Generates env a fs contents) :
    Loads env.numbers contents ↔ ∀ s ∈ a.special, ∀ c ∈ s, ¬ (c = '"' ∨ c = '\\' ∨ c.toNat < 32) := by
  obtain ⟨processors, train, allow, split, added, suggested, g, vocab, _, _, _, _, _, _, _, h8, rfl⟩ := h
  have hfin : ∀ token ∈ vocab, Finite token.score := by
    obtain ⟨entries, _, h9⟩ := h8
    unfold Generator.generateFrom at h9
    obtain ⟨acc, _, h9⟩ := bind_ok h9
    simp only at h9
    generalize byv : env.byScore.run _ _ = v at h9
    by_cases hn : ((Generator.logprobs v).all fun t => TrainOps.isNormal t.score) = true
    · rw [if_pos hn] at h9
      simp only [res_pure, Except.ok.injEq] at h9
      subst h9
      intro token ht
      have hnorm := List.all_eq_true.1 hn token ht
      obtain ⟨t₀, _, rfl⟩ := List.mem_map.1 ht
      exact finite_of_normal isF64_add hnorm
    · rw [if_neg hn] at h9; simp at h9
  constructor
  · intro hl
    obtain ⟨u, hu⟩ := hl (fun _ => some (saved env.numbers (Tokenizer.new (Model.from_ vocab) processors a.special))) [] rfl
    exact ((reread_revised laws.numbers vocab processors a.special _ [] rfl).1.1 ⟨u, hu⟩).1
  · intro hp fs' path hf
    exact (reread_revised laws.numbers vocab processors a.special fs' path hf).1.2
      ⟨hp, fun token ht => (reread_some_iff hN _).2 (hfin token ht)⟩

/-- **C86** (merge) What `merge` writes can be loaded if the scale factor is at most 1 in absolute value, no token of the
input is empty or has a score beyond `2^971`, and the longest token asked for is shorter than `2^53` bytes. -/
theorem C86_merge (env : Env F64) (laws : EnvLaws env) (hN : SerdeDoubles env.numbers) (a : MergeArgs F64) (fs : Files)
    (contents : List UInt8) (h : Merges env a fs contents) (t : Tokenizer F64) (ht : fromFile env.numbers fs a.input = .ok t)
    (hscale : Within (2 ^ 1074) a.scaleFactor) (hin : ∀ token ∈ t.model.vocab, token.value ≠ [] ∧ Within (2 ^ (971 + 1074)) token.score)
    (hlen : a.maxTokenLength < 2 ^ 53) : Loads env.numbers contents := by
  obtain ⟨added, re, _, _, h2, hr⟩ := C71_merge env laws a fs contents h t ht
  refine loads_of_revised hN hr ?_
  have key : ∀ i, ∀ token ∈ t.model.vocab ++ added.take i, Finite token.score ∧
      Within (token.value.length * 2 ^ (971 + 1074)) token.score := by
    intro i
    induction i with
    | zero =>
      intro token htok
      rw [List.take_zero, List.append_nil] at htok
      obtain ⟨h3, h4⟩ := hin token htok
      refine ⟨h4.finite, ?_⟩
      obtain ⟨s, n, e, hd, hle⟩ := h4
      refine ⟨s, n, e, hd, ?_⟩
      have : 0 < token.value.length := List.length_pos_iff.2 h3
      generalize 2 ^ (971 + 1074) = B at hle ⊢
      exact Nat.le_trans hle (Nat.le_mul_of_pos_left _ this)
    | succ i ih =>
      intro token htok
      by_cases hi : i < added.length
      · rw [List.take_succ_eq_append_getElem hi, ← List.append_assoc] at htok
        rcases List.mem_append.1 htok with htok | htok
        · exact ih token htok
        · rw [List.mem_singleton] at htok
          obtain ⟨x, hx, y, hy, e1, e2, _, h5, _⟩ := h2 i token (by rw [htok]; exact List.getElem?_eq_getElem hi)
          have hdouble : IsDouble (token.value.length * 2 ^ (971 + 1074)) :=
            isDouble_scaled (by omega) (by omega)
          have hsum := within_add (ih x hx).2 (ih y hy).2 (by
            rw [← Nat.add_mul, ← List.length_append, ← e1]; exact hdouble)
          rw [← Nat.add_mul, ← List.length_append, ← e1] at hsum
          have := within_mul hsum hscale hdouble
          rw [e2]
          exact ⟨Within.finite this, this⟩
      · rw [List.take_of_length_le (by omega)] at htok
        rw [List.take_of_length_le (by omega)] at ih
        exact ih token htok
  intro token htok
  refine (key added.length token ?_).1
  rw [List.take_length]
  exact htok

/-- **C86** (merge) If the scale factor is NaN or infinite, what `merge` writes can be loaded if and only if it holds no new
token: `tokengeex merge` goes through, but its work is lost. -/
theorem C86_merge_scale (env : Env F64) (laws : EnvLaws env) (hN : SerdeDoubles env.numbers) (a : MergeArgs F64) (fs : Files)
    (contents : List UInt8) (h : Merges env a fs contents) (t : Tokenizer F64) (ht : fromFile env.numbers fs a.input = .ok t)
    (hscale : a.scaleFactor = .nan ∨ ∃ s, a.scaleFactor = .inf s) :
    ∃ w, HoldsRevised env.numbers contents t w ∧ t.model.vocab <+: w ∧ (Loads env.numbers contents ↔ w = t.model.vocab) := by
  obtain ⟨added, re, _, _, h2, hr⟩ := C71_merge env laws a fs contents h t ht
  refine ⟨_, hr, List.prefix_append _ _, fun hl => ?_, fun e => ?_⟩
  · obtain ⟨u, hu⟩ := hl (fun _ => some contents) [] rfl
    have h3 := (hr _ [] rfl).1.1 ⟨u, hu⟩
    cases added with
    | nil => simp
    | cons token rest =>
      exfalso
      obtain ⟨x, _, y, _, _, e, _⟩ := h2 0 token rfl
      have h4 := (reread_some_iff hN _).1 (h3 token (by simp))
      rw [e] at h4
      exact mul_not_finite _ hscale h4
  · rw [e] at hr
    exact loads_of_revised hN hr (fromFile_finite hN ht)

end

/-! ### Non-vacuity -/

section

/-- The surroundings used in the examples; numbers are printed as specified. -/
noncomputable def env64 : Env F64 where
  norm := fun _ s => s
  parse := fun _ => none
  numbers := serdeDoubles_exists.choose
  fancy := fun _ => none
  findIter := fun _ s => [s]
  shard := fun _ => 0
  ninf := .inf true
  shrink := fun _ n => n / 2
  byFreq := insertSorter _
  byScore := insertSorter _
  byPairs := insertSorter _
  std := listStd F64

theorem env64_numbers : SerdeDoubles env64.numbers := serdeDoubles_exists.choose_spec

/-- Stand-ins for `exp` and `ln`. -/
@[instance_reducible] def plainElementary : Elementary := ⟨fun x => x, fun x => x⟩

attribute [local instance] plainElementary

theorem env64_laws : EnvLaws env64 :=
  ⟨env64_numbers.prints, insertSorter_laws _, insertSorter_laws _, insertSorter_laws _, listStd_laws⟩

/-- `a`, `b` protected; `ab`, with scores -3, -3 and -2. -/
def vocab64 : List (ScoredToken F64) := [⟨[97], minus 3 0, true⟩, ⟨[98], minus 3 0, true⟩, ⟨[97, 98], minus 2 0, false⟩]

/-- `a`, `b`. -/
def bytes64 : List (ScoredToken F64) := [⟨[97], minus 3 0, true⟩, ⟨[98], minus 3 0, true⟩]

noncomputable def files64 : Files := fun p =>
  if p = "text".toList then some (enc "ab".toList)
  else if p = "allow".toList then some (enc "^(?:[ab]+)$".toList)
  else if p = "tok".toList then some (saved env64.numbers (Tokenizer.build vocab64 [] [['<', 'e', '>']] []))
  else if p = "bytes".toList then some (saved env64.numbers (Tokenizer.build bytes64 [] [['<', 'e', '>']] []))
  else none

theorem score64 {d : Nat} (hd : d = 3 ∨ d = 2) : ∃ s n, minus d 0 = .num s n ∧ IsDouble n ∧
    (n = 0 ∨ 2 ^ 1074 ≤ n * 10 ^ 5 ∧ n < 10 ^ 15 * 2 ^ 1074 ∧
      ∃ ds k, (∀ d ∈ ds, d < 10) ∧ ds.length ≤ 15 ∧ Identifies (ofDigits ds) k n) := by
  have : ∃ n, minus d 0 = .num true n ∧ IsDouble n ∧ 2 ^ 1074 ≤ n * 10 ^ 5 ∧ n < 10 ^ 15 * 2 ^ 1074 ∧
      ∃ ds k, (∀ d ∈ ds, d < 10) ∧ ds.length ≤ 15 ∧ Identifies (ofDigits ds) k n := by
    rcases hd with rfl | rfl
    · exact minus_ok (by decide) (by decide +kernel) (by decide +kernel)
    · exact minus_ok (by decide) (by decide +kernel) (by decide +kernel)
  obtain ⟨n, h1, h2, h3⟩ := this
  exact ⟨true, n, h1, h2, .inr h3⟩

theorem loads64 {vocab : List (ScoredToken F64)} (hv : ∀ token ∈ vocab, ∃ d, (d = 3 ∨ d = 2) ∧ token.score = minus d 0)
    {fs : Files} {path : Str} (hf : fs path = some (saved env64.numbers (Tokenizer.build vocab [] [['<', 'e', '>']] []))) :
    fromFile env64.numbers fs path = .ok (Tokenizer.build vocab [] [['<', 'e', '>']] []) := by
  have h := (C28_digits_partial env64_numbers vocab [] [['<', 'e', '>']] [] (by
    intro s hs
    have : s = ['<', 'e', '>'] := by
      rw [show (Tokenizer.build vocab [] [['<', 'e', '>']] []).specialTokens = [['<', 'e', '>']] from
        Tokenizer.new_specialTokens _ _ _ (by simp)] at hs
      exact List.mem_singleton.1 hs
    subst this
    decide) (by
    intro token ht
    rw [show (Tokenizer.build vocab [] [['<', 'e', '>']] []).model.vocab = vocab from Model.from_vocab _] at ht
    obtain ⟨d, hd, e⟩ := hv token ht
    rw [e]
    exact score64 hd)).2
  rw [fromFile_enc _ hf, h]
  rfl

theorem vocab64_scores : ∀ token ∈ vocab64, ∃ d, (d = 3 ∨ d = 2) ∧ token.score = minus d 0 := by
  intro token ht
  simp only [vocab64, List.mem_cons, List.not_mem_nil, or_false] at ht
  rcases ht with rfl | rfl | rfl
  · exact ⟨3, .inl rfl, by dsimp only⟩
  · exact ⟨3, .inl rfl, by dsimp only⟩
  · exact ⟨2, .inr rfl, by dsimp only⟩

theorem bytes64_scores : ∀ token ∈ bytes64, ∃ d, (d = 3 ∨ d = 2) ∧ token.score = minus d 0 := by
  intro token ht
  simp only [bytes64, List.mem_cons, List.not_mem_nil, or_false] at ht
  rcases ht with rfl | rfl
  · exact ⟨3, .inl rfl, by dsimp only⟩
  · exact ⟨3, .inl rfl, by dsimp only⟩

theorem files64_tok : fromFile env64.numbers files64 "tok".toList = .ok (Tokenizer.build vocab64 [] [['<', 'e', '>']] []) :=
  loads64 vocab64_scores rfl

theorem files64_bytes : fromFile env64.numbers files64 "bytes".toList = .ok (Tokenizer.build bytes64 [] [['<', 'e', '>']] []) :=
  loads64 bytes64_scores rfl

theorem files64_text : ∃ train, Source.loadAll env64.norm files64 env64.parse [] ["x:text".toList] = .ok train ∧
    Source.Shuffled train [['a', 'b']] := by
  have h : (Source.loadAll (fun _ s => s) (fun p => if p = "text".toList then some (enc "ab".toList) else none) (fun _ => none) []
      ["x:text".toList]).map (fun train => train.flatMap Source.processedSamples) = .ok [['a', 'b']] := by decide +kernel
  have e : Source.loadAll env64.norm files64 env64.parse [] ["x:text".toList] = Source.loadAll (fun _ s => s)
      (fun p => if p = "text".toList then some (enc "ab".toList) else none) (fun _ => none) [] ["x:text".toList] := rfl
  rw [e]
  cases hl : Source.loadAll (fun _ s => s) (fun p => if p = "text".toList then some (enc "ab".toList) else none) (fun _ => none) []
      ["x:text".toList] with
  | error e => rw [hl] at h; cases h
  | ok train =>
    rw [hl] at h
    exact ⟨train, rfl, by unfold Source.Shuffled; rw [← Except.ok.inj h]⟩

theorem filter64 : ∃ m, VocabularyFilter.filter ⟨2, none, false⟩ (.inf true) (insertSorter _) (Model.from_ vocab64) = .ok m := by
  have h : (VocabularyFilter.filter ⟨2, none, false⟩ (.inf true) (insertSorter _) (Model.from_ vocab64)).isOk = true := by
    decide +kernel
  cases hm : VocabularyFilter.filter ⟨2, none, false⟩ (.inf true) (insertSorter _) (Model.from_ vocab64) with
  | error e => rw [hm] at h; cases h
  | ok m => exact ⟨m, rfl⟩

/-- Filtering three tokens to two. -/
example : ∃ contents, Filters env64 ⟨"tok".toList, "out".toList, 2, none, false⟩ files64 contents ∧
    Loads env64.numbers contents := by
  obtain ⟨m, hm⟩ := filter64
  have h : Filters env64 ⟨"tok".toList, "out".toList, 2, none, false⟩ files64 _ := ⟨_, m, files64_tok, hm, rfl⟩
  exact ⟨_, h, C86_filter env64 env64_laws env64_numbers _ _ _ h⟩

theorem prune64 : Pruner.pruneVocab ⟨2, fun n => n / 2, 0, .num false 0⟩ (listStd F64) (Model.from_ vocab64)
    (fun _ => .num false 0) 1 [0, 0, 1] 10 = .ok bytes64 := by decide +kernel

/-- Pruning three tokens to two. -/
example : ∃ contents, Prunes env64 ⟨"tok".toList, "out".toList, 2, ["x:text".toList], .num false 0, .num false 0, 0⟩ files64
    contents ∧ Loads env64.numbers contents := by
  obtain ⟨train, h1, h2⟩ := files64_text
  have hids : [['a', 'b']].mapM (fun s => (Model.from_ vocab64).encode s ScoreOps.zero (fun _ => .num false 0)) = .ok [[2]] := by
    decide +kernel
  obtain ⟨freqs, hf⟩ := Pruner.frequencies_exist vocab64 (fun _ => .num false 0) [['a', 'b']] (by
    intro s _
    exact C04_dropout_total _ s _ _ (by
      simp only [List.mem_singleton] at *
      rename_i hs
      unfold BytesCovered
      subst hs
      decide))
  obtain ⟨val, hv, rfl⟩ := id hf
  have hval : (List.range (Model.from_ vocab64).vocabSize).map val = [0, 0, 1] := by
    have h5 : (Model.from_ vocab64).vocabSize = 3 := by decide
    rw [h5]
    have := fun i hi => C50_tokens (Model.from_ vocab64) (fun _ => .num false 0) [['a', 'b']] _ hids val hv i (by rw [h5]; exact hi)
    simp only [List.range, List.range.loop, List.map_cons, List.map_nil]
    rw [this 0 (by omega), this 1 (by omega), this 2 (by omega)]
    decide
  have h : ∃ contents, Prunes env64 ⟨"tok".toList, "out".toList, 2, ["x:text".toList], .num false 0, .num false 0, 0⟩ files64
      contents := by
    refine ⟨_, _, train, [['a', 'b']], Model.from_ bytes64, files64_tok, h1, h2, ⟨.single ⟨by decide, _, .zero _, ?_⟩, by decide⟩, rfl⟩
    refine ⟨fun _ => .num false 0, _, _, 10, hf, ?_, rfl⟩
    rw [hval]
    exact Pruner.pruneVocab_more prune64
  obtain ⟨_, h⟩ := h
  exact ⟨_, h, C86_prune env64 env64_laws env64_numbers _ _ _ h⟩

theorem files64_allow : ∃ re, regexFile files64 "allow".toList = .ok re ∧ re.isMatch ['a', 'b'] = true := by
  have : (regexFile (fun p => if p = "allow".toList then some (enc "^(?:[ab]+)$".toList) else none) "allow".toList).map
      (fun re => re.isMatch ['a', 'b']) = .ok true := by decide +kernel
  have e : regexFile files64 "allow".toList =
      regexFile (fun p => if p = "allow".toList then some (enc "^(?:[ab]+)$".toList) else none) "allow".toList := rfl
  rw [e]
  cases h : regexFile (fun p => if p = "allow".toList then some (enc "^(?:[ab]+)$".toList) else none) "allow".toList with
  | error e => rw [h] at this; cases this
  | ok re => rw [h] at this; exact ⟨re, rfl, Except.ok.inj this⟩

/-- Merging `a` and `b`, with any scale factor. -/
theorem merge64 (f : F64) : ∃ contents, Merges env64 ⟨"bytes".toList, "out".toList, ["x:text".toList], "allow".toList, 1, 1, f, 8⟩
    files64 contents ∧
    HoldsRevised env64.numbers contents (Tokenizer.build bytes64 [] [['<', 'e', '>']] [])
      (bytes64 ++ [⟨[97, 98], ScoreOps.add (minus 3 0) (minus 3 0) * f, false⟩]) := by
  obtain ⟨train, h1, h2⟩ := files64_text
  obtain ⟨listing, hl⟩ := Merger.listings_exist (F := F64) (fun _ => .num false 0) (insertSorter _) [['a', 'b']]
  obtain ⟨re, hre, hmatch⟩ := files64_allow
  have he0 : EncodedAs (fun _ => (.num false 0 : F64)) [['a', 'b']] bytes64 [[0, 1]] := by unfold EncodedAs; decide +kernel
  have hmerge : Merger.merge ⟨re.isMatch, 1, 1, f, 8⟩ (fun _ => .num false 0) listing [['a', 'b']] 2 (Model.from_ bytes64) =
      .ok (Model.from_ (bytes64 ++ [⟨[97, 98], ScoreOps.add (minus 3 0) (minus 3 0) * f, false⟩])) := by
    obtain ⟨added, hr, _, he⟩ := Merger.mergeLoop_succ (c := (⟨re.isMatch, 1, 1, f, 8⟩ : Merger F64)) (insertSorter_laws _) hl
      (start := 2) (v := bytes64) (show 2 < 2 + 1 by omega) ⟨_, he0⟩ 1 0
    have hm : MergeOf (⟨re.isMatch, 1, 1, f, 8⟩ : Merger F64) bytes64 (0, 1)
        ⟨[97, 98], ScoreOps.add (minus 3 0) (minus 3 0) * f, false⟩ :=
      ⟨⟨[97], minus 3 0, true⟩, ⟨[98], minus 3 0, true⟩, by rfl, by rfl, by rfl, by dsimp only, by rfl, show 2 ≤ 8 by omega, by
        rw [show lossy [97, 98] = ['a', 'b'] by decide]; exact hmatch⟩
    have := round_one he0 (show min 1 (1 - (2 - 2)) ≠ 0 by decide) (q := (0, 1)) (by decide) (by
      intro p hp
      obtain ⟨ids, h1, h2⟩ := Merger.pairCount_pos hp
      simp only [List.mem_cons, List.not_mem_nil, or_false] at h1
      subst h1
      simpa [adjacent] using h2) hm hr
    subst this
    change Merger.mergeLoop _ _ listing [['a', 'b']] 2 (1 + 1) 0 (Model.from_ bytes64) = _
    rw [he]
    exact (if_neg (show ¬ min 1 (1 - (2 - 2)) - 1 = 1 by decide)).trans (Merger.mergeLoop_done (show ¬ 3 < 2 + 1 by omega) 0 1)
  exact ⟨_, ⟨_, train, [['a', 'b']], re, fun _ => .num false 0, listing, 2, _, by simp, files64_bytes, h1, h2, hre, fun r v _ => hl r v ‹_›,
    hmerge, rfl⟩, holdsRevised env64_laws.numbers files64_bytes _⟩

/-- Merging with the default scale factor 0.9. -/
example : ∃ contents, Merges env64 ⟨"bytes".toList, "out".toList, ["x:text".toList], "allow".toList, 1, 1, nineTenths, 8⟩ files64
    contents ∧ Loads env64.numbers contents := by
  obtain ⟨contents, h, _⟩ := merge64 nineTenths
  refine ⟨contents, h, C86_merge env64 env64_laws env64_numbers _ _ _ h _ files64_bytes ?_ ?_ (show 8 < 2 ^ 53 by omega)⟩
  · dsimp only
    have : nineTenths = .num false (F64.roundMag (9 * 2 ^ 1074) 10) := by decide +kernel
    refine ⟨false, _, this, F64.isDouble_roundMag (by omega) (by decide +kernel), by decide +kernel⟩
  · intro token ht
    rw [show (Tokenizer.build bytes64 [] [['<', 'e', '>']] []).model.vocab = bytes64 from Model.from_vocab _] at ht
    have h3 : Within (2 ^ (971 + 1074)) (minus 3 0) := by
      have : minus 3 0 = .num true (F64.roundMag (3 * 2 ^ 1074) (10 ^ 0)) := by decide +kernel
      exact ⟨true, _, this, F64.isDouble_roundMag (by omega) (by decide +kernel), by decide +kernel⟩
    simp only [bytes64, List.mem_cons, List.not_mem_nil, or_false] at ht
    rcases ht with rfl | rfl
    · dsimp only
      exact ⟨by simp, h3⟩
    · dsimp only
      exact ⟨by simp, h3⟩

/-- **C86** is false of `merge --scale-factor nan`: it can write a file that does not load. -/
theorem C86_merge_false : ∃ (a : MergeArgs F64) (fs : Files) (contents : List UInt8), Merges env64 a fs contents ∧
    ¬ Loads env64.numbers contents := by
  obtain ⟨contents, h, hr⟩ := merge64 .nan
  generalize (ScoreOps.add (minus 3 0) (minus 3 0) : F64) = x at hr
  refine ⟨_, _, contents, h, fun hl => ?_⟩
  obtain ⟨u, hu⟩ := hl (fun _ => some contents) [] rfl
  have key : ∀ x : F64, Finite (x * nan) → False := fun x h => mul_not_finite x (.inl rfl) h
  have h1 := (reread_some_iff env64_numbers _).1 ((hr _ [] rfl).1.1 ⟨u, hu⟩ _ (List.mem_append_right _ (List.mem_singleton.2 rfl)))
  dsimp only at h1
  exact key _ h1

/-- The vocabulary generated from nothing: the bytes. -/
theorem generated64 (g : Generator F64) (hg : g.frequencies = [] ∧ g.addedTokens = [] ∧ g.suggestedTokens = []) :
    ∃ vocab, Generator.Generate g (insertSorter _) (insertSorter _) 300 vocab := by
  obtain ⟨h1, h2, h3⟩ := hg
  have h : ((Generator.new 8 (.num false 0 : F64) none none [] []).generateFrom (insertSorter _) (insertSorter _) 300 []).isOk = true := by
    decide +kernel
  have e : g.generateFrom (insertSorter _) (insertSorter _) 300 [] =
      (Generator.new 8 (.num false 0 : F64) none none [] []).generateFrom (insertSorter _) (insertSorter _) 300 [] := by
    unfold Generator.generateFrom
    rw [h1, h2, h3]
    rfl
  rw [← e] at h
  cases hv : g.generateFrom (insertSorter _) (insertSorter _) 300 [] with
  | error e => rw [hv] at h; cases h
  | ok vocab => exact ⟨vocab, [], by rw [h1], hv⟩

/-- Generating, with a special token that can be loaded and with one that cannot. -/
example (special : Str) : ∃ contents, Generates env64
    ⟨"new".toList, 300, [], ["crlf".toList], [special], [], [], none, none, .num false (2 ^ 1074), 8⟩ (fun _ => none) contents ∧
    (Loads env64.numbers contents ↔ ∀ c ∈ special, ¬ (c = '"' ∨ c = '\\' ∨ c.toNat < 32)) := by
  obtain ⟨vocab, hv⟩ := generated64 (Generator.new 8 (.num false (2 ^ 1074)) none none [] []) ⟨rfl, rfl, rfl⟩
  have h : Generates env64 ⟨"new".toList, 300, [], ["crlf".toList], [special], [], [], none, none, .num false (2 ^ 1074), 8⟩
      (fun _ => none) (saved env64.numbers (Tokenizer.new (Model.from_ vocab) [.crlf] [special])) :=
    ⟨[.crlf], [], none, none, [], [], _, vocab,
      (show loadProcessors ["crlf".toList] = .ok [.crlf] by decide), rfl, rfl, rfl, rfl, rfl, .nil _, hv, rfl⟩
  refine ⟨_, h, (C86_generate env64 env64_laws env64_numbers _ _ _ h).trans ?_⟩
  simp

end
end Tokengeex

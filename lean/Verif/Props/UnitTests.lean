import Verif.Props.Recipes
import Verif.Props.DefaultVocab
import Verif.Props.Counting
import Verif.Props.NBestAny
import Verif.Props.Number64
import Verif.Model.Float64Train
import Verif.Model.Tokenizer
/-
The unit tests of the repository, on the model.  They are no proofs of properties: they are evidence that the model does
what the tests of the code expect.  `test_regexes` (src/regex.rs:450) is C68_examples.
-/
namespace Tokengeex
open Spec

private def eos : List Str := ["<EOS>".toList, "random".toList, "<EOS_2>".toList]

/-- `test_special_tokens_splitter`, src/tokenizer.rs:442-487. -/
example : splitAll eos 9 "<EOS>Hello<EOS>".toList = some [("<EOS>".toList, true), ("Hello".toList, false), ("<EOS>".toList, true)] ∧
    splitAll eos 9 "randomstring".toList = some [("random".toList, true), ("string".toList, false)] ∧
    splitAll eos 9 "random<EOS_2>string".toList =
      some [("random".toList, true), ("<EOS_2>".toList, true), ("string".toList, false)] ∧
    splitAll eos 9 "nospecialtokens".toList = some [("nospecialtokens".toList, false)] ∧
    splitAll [] 9 "No special tokens".toList = some [("No special tokens".toList, false)] := by decide +kernel

/-- `make_vocab`, src/lib.rs, with whole numbers as scores. -/
private def made (ts : List (Str × Nat)) : List (ScoredToken F64) :=
  ts.map fun t => ⟨enc t.1, .num true (t.2 * 2 ^ 1074), false⟩

/-- `test_encode`, src/model.rs:209-215, with doubles. -/
example : (Model.from_ (made [(['a'], 3), (['b'], 3), (['c'], 3), (['a', 'b'], 4)])).encode ['a', 'b', 'c']
    (.num false 0) (fun _ => .num false 0) = .ok [3, 2] := by decide +kernel

private def abcdef : List (ScoredToken F64) :=
  made [(['a'], 3), (['b'], 3), (['c'], 3), (['d'], 3), (['e'], 3), (['f'], 3), (['a', 'b'], 4), (['a', 'b', 'c'], 5),
    (['a', 'b', 'c', 'd'], 6), (['a', 'b', 'c', 'd', 'e'], 7), (['a', 'b', 'c', 'd', 'e', 'f'], 8)]

/-- `test_encode_dropout`, src/model.rs:218-240: with dropout 1 for one sequence of random numbers (C06 says it for all). -/
example : (Model.from_ abcdef).encode "abcdef".toList (.num false (2 ^ 1074)) (fun _ => .num false (2 ^ 1073)) =
    .ok [0, 1, 2, 3, 4, 5] := by decide +kernel

/-- `test_decode_encode_invariants`, src/model.rs:243-252. -/
example (x : F64) (rnd : Nat → F64) : ∃ ids, (Model.from_ (newDefaultVocab x)).encode "你好，我叫罗杰斯".toList (.num false 0) rnd = .ok ids ∧
    ids.length = (enc "你好，我叫罗杰斯".toList).length ∧
    (Model.from_ (newDefaultVocab x)).decode ids = .ok "你好，我叫罗杰斯".toList := by
  exact ⟨_, C90_bytes x _ (.num false 0) rnd, List.length_map _, C02_decode_encode _ _ (.num false 0) rnd _ (C90_bytes x _ _ rnd)⟩

/-- `test_serialize_scored_token`, src/lib.rs:271-277. -/
example {N : NumText F64} (hN : SerdeDoubles N) (style : Json.Style) :
    (Json.read N (Json.write N style 0 (ScoredToken.toJson ⟨enc "hello".toList, .num false (2 ^ 1073), false⟩))).bind
      ScoredToken.ofJson = some ⟨enc "hello".toList, .num false (2 ^ 1073), false⟩ :=
  C27_digits_partial hN style _ false (2 ^ 1073) rfl ⟨1, 1073, by decide +kernel, by decide, by decide +kernel⟩
    (.inr ⟨by decide +kernel, by decide +kernel, [5], -1, by decide, by decide, by unfold Identifies; decide +kernel⟩)

/-- The matches of `std::\w+` in the samples of `test_mine`.  (`\w` is not modelled.) -/
private def stdMatches (s : Str) : List Str :=
  if s = "std::string".toList then ["std::string".toList]
  else if s = "std::vector".toList then ["std::vector".toList]
  else if s = "std::vector<std::string>".toList then ["std::vector".toList, "std::string".toList]
  else if s = "std::map<int, std::string>".toList then ["std::map".toList, "std::string".toList]
  else []

private def stdSamples : List Str :=
  ["std::string".toList, "std::vector".toList, "std::vector<std::string>".toList, "std::map<int, std::string>".toList]

private theorem std_count (t : Str) : matchCount stdMatches stdSamples t =
    (if t = "std::string".toList then 3 else if t = "std::vector".toList then 2 else if t = "std::map".toList then 1 else 0) := by
  have e : stdSamples.map stdMatches = [["std::string".toList], ["std::vector".toList], ["std::vector".toList, "std::string".toList],
      ["std::map".toList, "std::string".toList]] := by decide +kernel
  have : matchCount stdMatches stdSamples t = ((stdSamples.map stdMatches).map (·.count t)).sum := by
    rw [matchCount, List.map_map]; rfl
  rw [this, e]
  by_cases h1 : t = "std::string".toList
  · subst h1; decide +kernel
  rw [if_neg h1]
  by_cases h2 : t = "std::vector".toList
  · subst h2; decide +kernel
  rw [if_neg h2]
  by_cases h3 : t = "std::map".toList
  · subst h3; decide +kernel
  rw [if_neg h3]
  simp only [List.map_cons, List.map_nil, List.count_cons, List.count_nil, beq_iff_eq, Ne.symm h1, Ne.symm h2, Ne.symm h3, if_false]
  rfl

/-- `test_mine`, src/mine.rs:57-76, for every schedule of the threads, every map and every sort. -/
example (shard : Str → Nat) (sorter : Sorter (Str × Nat)) (hs : SortLaws sorter) (result : List (Str × Nat))
    (h : Miner.Mine stdMatches shard sorter 2 stdSamples result) :
    result = [("std::string".toList, 3), ("std::vector".toList, 2)] := by
  obtain ⟨hnd, hlen, hcount, hsorted, hleft⟩ := (C47_mine stdMatches shard sorter hs 2 stdSamples).2 result h
  have hc : ∀ e ∈ result, e.2 = matchCount stdMatches stdSamples e.1 := fun e he => (hcount e.1 e.2 he).1
  have hvs : "std::vector".toList ≠ "std::string".toList := by decide
  have h3 : matchCount stdMatches stdSamples "std::string".toList = 3 := by rw [std_count]; exact if_pos rfl
  have h2 : matchCount stdMatches stdSamples "std::vector".toList = 2 := by
    rw [std_count, if_neg hvs]; exact if_pos rfl
  have hge : ∀ e ∈ result, 2 ≤ e.2 → e = ("std::string".toList, 3) ∨ e = ("std::vector".toList, 2) := by
    rintro ⟨t, n⟩ he hn
    have := hc _ he
    simp only at this hn
    rw [std_count] at this
    by_cases e1 : t = "std::string".toList
    · rw [if_pos e1] at this; exact .inl (by rw [e1, this])
    rw [if_neg e1] at this
    by_cases e2 : t = "std::vector".toList
    · rw [if_pos e2] at this; exact .inr (by rw [e2, this])
    rw [if_neg e2] at this
    split at this <;> omega
  have hall : ∀ e ∈ result, 2 ≤ e.2 := by
    by_cases hv : "std::vector".toList ∈ result.map (·.1)
    · by_cases hst : "std::string".toList ∈ result.map (·.1)
      · obtain ⟨a, ha, ea⟩ := List.mem_map.1 hv
        obtain ⟨b, hb, eb⟩ := List.mem_map.1 hst
        rcases result with _ | ⟨x, _ | ⟨y, _ | ⟨z, rest⟩⟩⟩
        · cases ha
        · simp only [List.mem_cons, List.not_mem_nil, or_false] at ha hb
          subst ha; subst hb
          rw [ea] at eb
          exact absurd eb hvs
        · have ha2 := hc a ha
          have hb2 := hc b hb
          rw [ea, h2] at ha2
          rw [eb, h3] at hb2
          simp only [List.mem_cons, List.not_mem_nil, or_false] at ha hb
          intro e he
          simp only [List.mem_cons, List.not_mem_nil, or_false] at he
          rcases ha with rfl | rfl <;> rcases hb with rfl | rfl <;> rcases he with rfl | rfl <;> omega
        · simp only [List.length_cons] at hlen; omega
      · intro e he
        have := (hleft _ (by rw [h3]; omega) hst).2 e he
        omega
    · intro e he
      have := (hleft _ (by rw [h2]; omega) hv).2 e he
      omega
  have hs' : "std::string".toList ∈ result.map (·.1) := by
    by_contra hst
    obtain ⟨hl, h⟩ := hleft _ (by rw [h3]; omega) hst
    rcases result with _ | ⟨x, rest⟩
    · cases hl
    · have h1 := h x (.head _)
      rcases hge x (.head _) (by omega) with e | e
      · exact hst (List.mem_map.2 ⟨x, .head _, by rw [e]⟩)
      · rw [e] at h1; omega
  have hv' : "std::vector".toList ∈ result.map (·.1) := by
    by_contra hv
    obtain ⟨hl, h⟩ := hleft _ (by rw [h2]; omega) hv
    rcases result with _ | ⟨x, _ | ⟨y, _ | ⟨z, rest⟩⟩⟩
    · cases hl
    · cases hl
    · have hx := hge x (.head _) (hall x (.head _))
      have hy := hge y (.tail _ (.head _)) (hall y (.tail _ (.head _)))
      rcases hx with e | e
      · rcases hy with e' | e'
        · rw [e, e'] at hnd; exact absurd hnd (by decide)
        · exact hv (List.mem_map.2 ⟨y, .tail _ (.head _), by rw [e']⟩)
      · exact hv (List.mem_map.2 ⟨x, .head _, by rw [e]⟩)
    · cases hl
  rcases result with _ | ⟨x, _ | ⟨y, _ | ⟨z, rest⟩⟩⟩
  · cases hs'
  · rcases hge x (.head _) (hall x (.head _)) with e | e
    · rw [e] at hv'; exact absurd hv' (by decide)
    · rw [e] at hs'; exact absurd hs' (by decide)
  · have hx := hge x (.head _) (hall x (.head _))
    have hy := hge y (.tail _ (.head _)) (hall y (.tail _ (.head _)))
    rcases hx with rfl | rfl <;> rcases hy with rfl | rfl
    · exact absurd hnd (by decide)
    · rfl
    · exact absurd hsorted (by decide)
    · exact absurd hnd (by decide)
  · simp only [List.length_cons] at hlen; omega

private def dcVocab : List (ScoredToken F64) :=
  made [("<".toList, 3), (" value".toList, 6), (">".toList, 3), ("DC value".toList, 8), ("<DC".toList, 4), ("<DC value>".toList, 12)]

/-- The second half of `test_lattice`, src/lattice.rs:410-473 (commented out there), with doubles: the segmentations that
`nbest(10)` lists, with total scores -12, -13 and -14. -/
example : ((Model.from_ dcVocab).populateNodes (latticeOf (enc "<DC value>".toList) []) (.num false 0) (fun _ => .num false 0)).toOption.bind
    (fun r => (r.1.nbest (agendaHeap F64) 10 100).toOption.map fun r => r.2.map fun nodes => nodes.map (·.tokenId)) =
    some [[5], [4, 1, 2], [0, 3, 2]] := by decide +kernel

/-- `test_generate`, src/generate.rs:251-284, for every `allow`, all samples and every sort. -/
example [Elementary] (allow : Option (Str → Bool)) (samples : List Str) (g : Generator F64)
    (h : Fed 6 (.num false (2 ^ 1074)) none allow ["goodbye".toList, "vec".toList] ["string".toList, "map".toList] samples g)
    (byFreq : Sorter (Str × Nat)) (hf : SortLaws byFreq) (byScore : Sorter (ScoredToken F64)) (hs : SortLaws byScore)
    (w : List (ScoredToken F64)) (hg : Generator.Generate g byFreq byScore (256 + 10) w) :
    ∃ t ∈ w, t.value = enc "string".toList :=
  C67_suggested _ _ _ _ _ _ _ g h byFreq hf byScore hs _ w hg (by decide) _ (by decide) (by decide)

end Tokengeex

import Verif.Props.Serde
import Verif.Proofs.JsonGrammar
/-
C75: which texts load as a tokenizer, down to the last character.
-/
namespace Tokengeex
open Spec
variable {F : Type}

/-- C75, the reader: a text is read as a value exactly when RFC 8259's grammar (Spec/JsonGrammar.lean) derives it with that
value and at most 127 nested arrays and objects. -/
theorem C75_reader (N : NumText F) (text : Str) (x : Json RawStr F) : Json.read N text = some x ↔ JsonText N 127 text x :=
  Json.read_iff N text x

/-- C75.  `from_str` (and `from_file` on the contents of the file) accepts exactly the JSON texts of tokenizer documents, and
the tokenizer is the one the document describes. -/
theorem C75_loads (N : NumText F) (text : Str) (t : Tokenizer F) :
    Tokenizer.fromStr N text = some t ↔ ∃ j vocab processors specials, JsonText N 127 text j ∧
      IsDocument j vocab processors specials ∧ t = Tokenizer.new (Model.from_ vocab) processors specials := by
  unfold Tokenizer.fromStr
  rw [Option.bind_eq_some_iff]
  constructor
  · rintro ⟨j, hj, h⟩
    obtain ⟨v, p, s, h1, h2⟩ := (C29_loader j t).1 h
    exact ⟨j, v, p, s, (C75_reader N text j).1 hj, h1, h2⟩
  · rintro ⟨j, v, p, s, hj, h1, h2⟩
    exact ⟨j, (C75_reader N text j).2 hj, (C29_loader j t).2 ⟨v, p, s, h1, h2⟩⟩

/-- C75, the grammar leaves no choice: a text has at most one value. -/
theorem C75_unique (N : NumText F) (text : Str) (x y : Json RawStr F) (hx : JsonText N 127 text x) (hy : JsonText N 127 text y) :
    x = y := by
  have := ((C75_reader N text x).2 hx).symm.trans ((C75_reader N text y).2 hy)
  injection this

/-- C75, saved files: what `to_string` and `save` write is JSON, whatever the tokenizer holds.  Only the form of numbers
matters here, so every number may stand for the same value. -/
theorem C75_saved (N : NumText F) (hN : PrintsNumbers N) (x : F) (t : Tokenizer F) :
    (∃ j, JsonText ⟨N.print, fun _ => some x⟩ 127 (t.toString N) j) ∧
    (∃ j, JsonText ⟨N.print, fun _ => some x⟩ 127 (t.fileContents N) j) := by
  have key : ∀ style, ∃ j, JsonText (⟨N.print, fun _ => some x⟩ : NumText F) 127 (Json.write N style 0 t.toJson) j := by
    intro style
    have hM : PrintsNumbers (⟨N.print, fun _ => some x⟩ : NumText F) := hN
    have hw := Json.read_write _ hM style t.toJson (by have := Tokenizer.nesting_toJson t; omega)
    obtain ⟨y, hy⟩ := Option.ne_none_iff_exists'.1
      (Json.seen_total (N := (⟨N.print, fun _ => some x⟩ : NumText F)) (by simp) t.toJson)
    refine ⟨y, (C75_reader _ _ _).1 ?_⟩
    rw [Json.write_print (N := N) (M := ⟨N.print, fun _ => some x⟩) rfl, hw, hy]
  exact ⟨key .compact, key .pretty⟩

/-- Two texts of the grammar, written out by hand: white space, an escape, a surrogate pair, an exponent. -/
example : JsonText intNumbers 127 "\t{ }\n".toList (.obj []) :=
  ⟨"\t".toList, "{ }".toList, "\n".toList, rfl, by unfold White; decide, .noMembers (w := [' ']) (by unfold White; decide),
    by unfold White; decide⟩

example : ∃ r, JsonText intNumbers 127 "[\"\\ud83d\\ude00\\/\", -12e0]".toList (.arr [.str ⟨['😀', '/'], true⟩, .num r]) := by
  have h : (match Json.read intNumbers "[\"\\ud83d\\ude00\\/\", -12e0]".toList with
      | some (.arr [.str r, .num _]) => some r
      | _ => none) = some ⟨['😀', '/'], true⟩ := by decide +kernel
  split at h
  · rename_i r x h'
    injection h with h
    subst h
    exact ⟨x, (C75_reader _ _ _).1 h'⟩
  · cases h

/-- Texts the grammar excludes: leading zeros, a trailing comma, a raw control character, half a surrogate pair, an unclosed
string, two values, another letter case. -/
example : ∀ text ∈ ["01", "[1,]", "\"\t\"", "\"\\ud83d\"", "\"a", "1 2", "True", "+1", "1.", "[1 2]", "{\"a\" 1}", "{a:1}"],
    (Json.read intNumbers text.toList).isNone = true := by decide +kernel

/-- 127 brackets are read, 128 are not. -/
example : (Json.read intNumbers (List.replicate 127 '[' ++ List.replicate 127 ']')).isSome = true ∧
    (Json.read intNumbers (List.replicate 128 '[' ++ List.replicate 128 ']')).isNone = true := by decide +kernel

end Tokengeex

import Verif.Proofs.SplitterBytes
import Verif.Proofs.Split
/-
C69: splitting at special tokens on bytes (src/tokenizer.rs:297-349).
-/
namespace Tokengeex
open Spec SplitterBytes

/-- **C69** The splitter works on byte offsets, yet it never slices a text inside a character: on the bytes of any text, with
any special tokens none of which is empty, it runs to its end, and the pieces are the bytes of the one split the
specification describes. -/
theorem C69_split (specials : List Str) (hne : [] ∉ specials) (text : Str) (fuel : Nat) (hf : text.length < fuel) :
    ∃ pieces, IsSplit specials text pieces ∧
      runB (specials.map enc) (enc text) fuel 0 = .ok (pieces.map fun p => (enc p.1, p.2)) := by
  obtain ⟨pieces, h1, h2⟩ := splitAll_spec hne fuel text hf
  refine ⟨pieces, h2, ?_⟩
  have := runB_enc specials fuel [] text
  rwa [h1] at this

/-- **C69** Whatever the special tokens, the empty one included, no step panics. -/
theorem C69_no_panic (specials : List Str) (text : Str) (fuel : Nat) :
    runB (specials.map enc) (enc text) fuel 0 ≠ .error .panic := by
  have := runB_enc specials fuel [] text
  rw [List.nil_append, enc_nil, List.length_nil] at this
  rw [this]
  cases splitAll specials fuel text with
  | none => simp
  | some pieces => simp

/-- **C69** `encode` on the bytes of a text, with byte offsets, is `encode` on its characters; so everything proved of the latter
holds of the former. -/
theorem C69_encode {F : Type} [ScoreOps F] (norm : UnicodeForm → Str → Str) (t : Tokenizer F) (text : Str) (dropout : F)
    (rnd : Nat → F) : encodeLoopB norm t dropout rnd (enc text) (text.length + 1) 0 0 [] = t.encode norm text dropout rnd :=
  encodeLoopB_enc norm t dropout rnd _ [] text 0 []

/-- Characters of two and three bytes beside a special token: offsets 2, 5 and 8 are used, the others would panic. -/
example : runB [enc ['é', '€']] (enc ['é', 'a', 'é', '€', '€']) 6 0 =
    .ok [(enc ['é', 'a'], false), (enc ['é', '€'], true), (enc ['€'], false)] := by decide +kernel
example : sliceFrom (enc ['é']) 1 = .error .panic := by decide +kernel
/-- A special token sharing its first byte with a character of the text is not found in it. -/
example : runB [enc ['è']] (enc ['é']) 3 0 = .ok [(enc ['é'], false)] := by decide +kernel

end Tokengeex

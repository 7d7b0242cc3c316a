import Verif.Model.Serde
/-
Specification for C89: what is left of a tokenizer after it has been written and loaded several times.
-/
namespace Tokengeex
namespace Spec
variable {F : Type}

/-- Writing a tokenizer (`.compact` for `to_string`, `.pretty` for `save`) and loading the text, once for every style in
the list, each time starting from what was loaded before.  `none` if something does not load. -/
def reloads [BEq F] [ScoreOps F] (N : NumText F) : List Json.Style → Tokenizer F → Option (Tokenizer F)
  | [], t => some t
  | style :: styles, t => (Tokenizer.fromStr N (Json.write N style 0 t.toJson)).bind (reloads N styles)

end Spec
end Tokengeex

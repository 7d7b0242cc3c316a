import Batteries.Data.List.Basic
import Verif.Model.Json
import Verif.Model.Tokenizer
import Verif.Spec.Json
import Verif.Spec.Base64
/-
What a JSON document says, in terms of its members, independently of any decoder.
-/
namespace Tokengeex
namespace Spec
variable {F : Type}

/-- A score after being written and read: `none` if it is not finite or if its text is out of range. -/
def reread (N : NumText F) (x : F) : Option F := (N.print x).bind N.value

/-- The value of the last member with the given name. -/
def lastMember (name : Str) (ms : List (RawStr × Json RawStr F)) : Option (Json RawStr F) :=
  (ms.reverse.find? fun m => m.1.text = name).map (·.2)

/-- `result` is the value of the field `name`: every occurrence of the field is well-formed (`Means value x` for some
`x`), and the last one counts; `default` if there is none. -/
def IsField {α : Type} (name : Str) (Means : Json RawStr F → α → Prop) (default : α)
    (ms : List (RawStr × Json RawStr F)) (result : α) : Prop :=
  (∀ m ∈ ms, m.1.text = name → ∃ x, Means m.2 x) ∧
  match lastMember name ms with
  | none => result = default
  | some v => Means v result

/-- `result` is the value of the required field `name`: as above, and there is at least one occurrence. -/
def IsRequired {α : Type} (name : Str) (Means : Json RawStr F → α → Prop) (ms : List (RawStr × Json RawStr F))
    (result : α) : Prop :=
  (∀ m ∈ ms, m.1.text = name → ∃ x, Means m.2 x) ∧ ∃ v, lastMember name ms = some v ∧ Means v result

/-- Every member has one of the given names, written without escapes. -/
def OnlyNames (names : List Str) (ms : List (RawStr × Json RawStr F)) : Prop :=
  ∀ m ∈ ms, m.1.escaped = false ∧ m.1.text ∈ names

def IsText (j : Json RawStr F) (s : Str) : Prop := ∃ r, j = .str r ∧ r.text = s

/-- A string written without escapes. -/
def IsPlainText (j : Json RawStr F) (s : Str) : Prop := ∃ r, j = .str r ∧ r.escaped = false ∧ r.text = s

def IsNumber (j : Json RawStr F) (x : F) : Prop := j = .num x

def IsBool (j : Json RawStr F) (b : Bool) : Prop := j = .bool b

/-- `null`, or a value. -/
def IsOptional {α : Type} (Means : Json RawStr F → α → Prop) (j : Json RawStr F) (o : Option α) : Prop :=
  match o with
  | none => j = .null
  | some x => Means j x

/-- An array, item by item. -/
def IsListOf {α : Type} (Means : Json RawStr F → α → Prop) (j : Json RawStr F) (l : List α) : Prop :=
  ∃ items, j = .arr items ∧ List.Forall₂ Means items l

/-- `j` describes the token `t`: `value` and `score` are there and not null, `encoded` and `keep` are false unless given,
and the bytes are those of the text or, if `encoded`, those it is the base64 form of. -/
def IsToken (j : Json RawStr F) (t : ScoredToken F) : Prop :=
  ∃ ms text encoded, j = .obj ms ∧
    OnlyNames ["value".toList, "score".toList, "encoded".toList, "keep".toList] ms ∧
    IsField "value".toList (IsOptional IsText) none ms (some text) ∧
    IsField "score".toList (IsOptional IsNumber) none ms (some t.score) ∧
    IsField "encoded".toList IsBool false ms encoded ∧
    IsField "keep".toList IsBool false ms t.keep ∧
    (if encoded = true then IsBase64 t.value text else t.value = enc text)

/-- An object without escapes in its names whose `type`, wherever it is given, is "crlf". -/
def IsCrlf (j : Json RawStr F) : Prop :=
  ∃ ms, j = .obj ms ∧ ∀ m ∈ ms, m.1.escaped = false ∧ (m.1.text = "type".toList → IsText m.2 "crlf".toList)

/-- The name of a normalisation form. -/
def formName : UnicodeForm → Str
  | .nfc => "nfc".toList
  | .nfd => "nfd".toList
  | .nfkc => "nfkc".toList
  | .nfkd => "nfkd".toList

/-- An object without escapes in its names whose `form` is the name of the form. -/
def IsUnicode (j : Json RawStr F) (form : UnicodeForm) : Prop :=
  ∃ ms, j = .obj ms ∧ (∀ m ∈ ms, m.1.escaped = false) ∧
    IsRequired "form".toList IsText ms (formName form)

/-- `j` describes the processor `p`.  Whatever can be understood as the CRLF processor is. -/
def IsProcessor (j : Json RawStr F) (p : Processor) : Prop :=
  match p with
  | .crlf => IsCrlf j
  | .unicode form => ¬ IsCrlf j ∧ IsUnicode j form

/-- `j` is a tokenizer file: an object with known fields only, whose version is "2.0". -/
def IsDocument (j : Json RawStr F) (vocab : List (ScoredToken F)) (processors : List Processor) (specials : List Str) :
    Prop :=
  ∃ ms, j = .obj ms ∧
    OnlyNames ["version".toList, "special_tokens".toList, "processors".toList, "vocab".toList] ms ∧
    IsRequired "version".toList IsText ms "2.0".toList ∧
    IsField "special_tokens".toList (IsListOf IsPlainText) [] ms specials ∧
    IsField "processors".toList (IsListOf IsProcessor) [] ms processors ∧
    IsField "vocab".toList (IsListOf IsToken) [] ms vocab

/-- The loaded vocabulary holds the saved tokens, each with the score its text is read as. -/
def Reloaded (N : NumText F) (saved loaded : ScoredToken F) : Prop :=
  loaded.value = saved.value ∧ loaded.keep = saved.keep ∧ reread N saved.score = some loaded.score

end Spec
end Tokengeex

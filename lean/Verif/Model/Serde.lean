import Verif.Model.Json
import Verif.Model.Base64
import Verif.Model.Tokenizer
/-
The `Serialize` and `Deserialize` implementations of src/lib.rs, src/processor.rs and src/tokenizer.rs.

Deserialisation is from the tree of Model/Json.lean; `none` is any `serde_json::Error`.
-/
namespace Tokengeex
variable {F : Type}

/-! ## The serde implementations of standard types used by the visitors -/

/-- `map.next_key::<&str>()`: a key that was written with escapes cannot be borrowed, "invalid type: string, expected a
borrowed string". -/
def asKey (k : RawStr) : Option Str := if k.escaped then none else some k.text

/-- `String::deserialize`. -/
def asString (j : Json RawStr F) : Option Str :=
  match j with
  | .str s => some s.text
  | _ => none

/-- `<&str>::deserialize`: only strings written without escapes. -/
def asBorrowed (j : Json RawStr F) : Option Str :=
  match j with
  | .str s => asKey s
  | _ => none

/-- `Option::<String>::deserialize`. -/
def asOptString (j : Json RawStr F) : Option (Option Str) :=
  match j with
  | .null => some none
  | .str s => some (some s.text)
  | _ => none

/-- `Option::<f64>::deserialize`. -/
def asOptNum (j : Json RawStr F) : Option (Option F) :=
  match j with
  | .null => some none
  | .num x => some (some x)
  | _ => none

/-- `bool::deserialize`. -/
def asBool (j : Json RawStr F) : Option Bool :=
  match j with
  | .bool b => some b
  | _ => none

/-- `Vec::<T>::deserialize`. -/
def asVec {α : Type} (item : Json RawStr F → Option α) (j : Json RawStr F) : Option (List α) :=
  match j with
  | .arr xs => xs.mapM item
  | _ => none

/-! ## Scored tokens -/

namespace ScoredToken

/-- `ScoredToken::serialize`, src/lib.rs:109-134. -/
def toJson (t : ScoredToken F) : Json Str F :=
  let encoded := (fromUtf8 t.value).isNone
  let value := match fromUtf8 t.value with
    | some s => s
    | none => Base64.encode t.value
  .obj ([("value".toList, .str value), ("score".toList, .num t.score)] ++
    (if encoded then [("encoded".toList, .bool true)] else []) ++
    (if t.keep then [("keep".toList, .bool true)] else []))

/-- The local variables of `ScoredTokenVisitor::visit_map`, src/lib.rs:154-157. -/
structure Fields (F : Type) where
  value : Option Str := none
  score : Option F := none
  encoded : Bool := false
  keep : Bool := false

/-- One turn of the loop of `ScoredTokenVisitor::visit_map`, src/lib.rs:159-177. -/
def field (f : Fields F) (m : RawStr × Json RawStr F) : Option (Fields F) := do
  let key ← asKey m.1
  if key = "value".toList then do
    let v ← asOptString m.2
    some { f with value := v }
  else if key = "score".toList then do
    let v ← asOptNum m.2
    some { f with score := v }
  else if key = "encoded".toList then do
    let v ← asBool m.2
    some { f with encoded := v }
  else if key = "keep".toList then do
    let v ← asBool m.2
    some { f with keep := v }
  else none

/-- The end of `ScoredTokenVisitor::visit_map`, src/lib.rs:179-197. -/
def ofFields (f : Fields F) : Option (ScoredToken F) := do
  let token ← f.value
  let value ← if f.encoded then Base64.decode token else some (enc token)
  let score ← f.score
  some { value := value, score := score, keep := f.keep }

/-- `ScoredToken::deserialize`, src/lib.rs:136-204. -/
def ofJson (j : Json RawStr F) : Option (ScoredToken F) :=
  match j with
  | .obj ms => (ms.foldlM field {}).bind ofFields
  | _ => none

end ScoredToken

/-! ## Processors -/

namespace UnicodeForm

/-- src/processor.rs:149-154. -/
def name : UnicodeForm → Str
  | nfc => "nfc".toList
  | nfd => "nfd".toList
  | nfkc => "nfkc".toList
  | nfkd => "nfkd".toList

/-- src/processor.rs:195-207. -/
def ofName (s : Str) : Option UnicodeForm :=
  if s = "nfc".toList then some nfc
  else if s = "nfd".toList then some nfd
  else if s = "nfkc".toList then some nfkc
  else if s = "nfkd".toList then some nfkd
  else none

end UnicodeForm

namespace Processor

/-- `CrlfProcessor::serialize` and `UnicodeProcessor::serialize`, src/processor.rs:56-67 and 139-159; the wrapper is
untagged, src/processor.rs:13-18. -/
def toJson (p : Processor) : Json Str F :=
  match p with
  | .crlf => .obj [("type".toList, .str "crlf".toList)]
  | .unicode form => .obj [("type".toList, .str "unicode".toList), ("form".toList, .str form.name)]

/-- One turn of the loop of `CrlfProcessorVisitor::visit_map`, src/processor.rs:86-98. -/
def crlfField (_ : Unit) (m : RawStr × Json RawStr F) : Option Unit := do
  let key ← asKey m.1
  if key = "type".toList then do
    let value ← asString m.2
    if value = "crlf".toList then some () else none
  else some ()

/-- `CrlfProcessor::deserialize`, src/processor.rs:69-106. -/
def crlfOfJson (j : Json RawStr F) : Option Unit :=
  match j with
  | .obj ms => ms.foldlM crlfField ()
  | _ => none

/-- One turn of the loop of `UnicodeProcessorVisitor::visit_map`, src/processor.rs:182-191. -/
def unicodeField (form : Option Str) (m : RawStr × Json RawStr F) : Option (Option Str) := do
  let key ← asKey m.1
  if key = "form".toList then do
    let value ← asString m.2
    some (some value)
  else some form

/-- `UnicodeProcessor::deserialize`, src/processor.rs:161-215. -/
def unicodeOfJson (j : Json RawStr F) : Option UnicodeForm :=
  match j with
  | .obj ms => do
    let form ← ms.foldlM unicodeField none
    let form ← form
    UnicodeForm.ofName form
  | _ => none

/-- The derived `Deserialize` of the untagged `ProcessorWrapper`, src/processor.rs:13-18: the variants are tried in
order. -/
def ofJson (j : Json RawStr F) : Option Processor :=
  match crlfOfJson j with
  | some () => some .crlf
  | none => (unicodeOfJson j).map .unicode

end Processor

/-! ## Tokenizers -/

namespace Tokenizer

/-- `SERIALIZATION_VERSION`, src/tokenizer.rs:349. -/
def serializationVersion : Str := "2.0".toList

/-- `Tokenizer::serialize`, src/tokenizer.rs:353-367. -/
def toJson (t : Tokenizer F) : Json Str F :=
  .obj [("version".toList, .str serializationVersion),
    ("special_tokens".toList, .arr (t.specialTokens.map .str)),
    ("processors".toList, .arr (t.processors.map Processor.toJson)),
    ("vocab".toList, .arr (t.model.vocab.map ScoredToken.toJson))]

/-- The local variables of `TokenizerVisitor::visit_map`, src/tokenizer.rs:395-398. -/
structure Fields (F : Type) where
  version : Option Str := none
  specialTokens : List Str := []
  vocab : List (ScoredToken F) := []
  processors : List Processor := []

/-- One turn of the loop of `TokenizerVisitor::visit_map`, src/tokenizer.rs:400-421. -/
def field (f : Fields F) (m : RawStr × Json RawStr F) : Option (Fields F) := do
  let key ← asKey m.1
  if key = "version".toList then do
    let v ← asString m.2
    some { f with version := some v }
  else if key = "special_tokens".toList then do
    let v ← asVec asBorrowed m.2
    some { f with specialTokens := v }
  else if key = "vocab".toList then do
    let v ← asVec ScoredToken.ofJson m.2
    some { f with vocab := v }
  else if key = "processors".toList then do
    let v ← asVec Processor.ofJson m.2
    some { f with processors := v }
  else none

/-- The end of `TokenizerVisitor::visit_map`, src/tokenizer.rs:423-433. -/
def ofFields (f : Fields F) : Option (Tokenizer F) := do
  let version ← f.version
  if version ≠ serializationVersion then none
  else some (Tokenizer.new (Model.from_ f.vocab) f.processors f.specialTokens)

/-- `Tokenizer::deserialize`, src/tokenizer.rs:369-435. -/
def ofJson (j : Json RawStr F) : Option (Tokenizer F) :=
  match j with
  | .obj ms => (ms.foldlM field {}).bind ofFields
  | _ => none

/-- `Tokenizer::to_string`, src/tokenizer.rs:293-297. -/
def toString (N : NumText F) (t : Tokenizer F) : Str := Json.write N .compact 0 t.toJson

/-- What `Tokenizer::save` writes to the file, src/tokenizer.rs:261-265. -/
def fileContents (N : NumText F) (t : Tokenizer F) : Str := Json.write N .pretty 0 t.toJson

/-- `Tokenizer::from_str`, src/tokenizer.rs:285-291, and `Tokenizer::from_file` on the contents of the file,
src/tokenizer.rs:279-282. -/
def fromStr (N : NumText F) (text : Str) : Option (Tokenizer F) := (Json.read N text).bind ofJson

end Tokenizer
end Tokengeex

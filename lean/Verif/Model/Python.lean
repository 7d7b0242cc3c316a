import Verif.Model.Cli
import Verif.Model.Batch
/-
The Python class of bindings/python/src/lib.rs.  Every method holds the interpreter's lock from start to end, so that the calls
of a program, even of one with threads, happen one after the other.  PyO3 (conversion of arguments and results, raising of
exceptions, `PanicException`) is not part of /repo; arguments it refuses (other types, integers that do not fit in 32 bits,
strings with lone surrogates) never reach the methods and are left out.
-/
namespace Tokengeex.Python
open Cli
variable {F : Type}

/-- The Python objects a program has created, in order, and the file system. -/
structure World (F : Type) where
  objects : List (Tokenizer F)
  files : Files

/-- What a call returns. -/
inductive Value (F : Type) where
  | nothing
  | ids (l : List TokenID)
  | batch (l : List (List TokenID))
  | text (s : Str)
  | texts (l : List Str)
  | id? (i : Option TokenID)
  | bytes? (b : Option Token)
  | scored? (p : Option (Token × F))
  | text? (s : Option Str)
  | bool (b : Bool)
  | size (n : Nat)
  | state (b : List UInt8)
  | object (i : Nat)

/-- What a call raises: `TokenGeeXError` with the error of the crate (bindings/python/src/lib.rs:33-37), where `loading` stands
for its JSON and IO errors; a plain exception for bytes that cannot be unpickled (lines 214-217); PyO3's `PanicException`. -/
inductive Raised where
  | coding (e : Err)
  | loading
  | unpickling
  | panic

/-- How a call ends. -/
abbrev Reply (F : Type) := Except Raised (Value F)

/-- A result of the crate as Python sees it; a call that does not return has no reply. -/
def reply {α : Type} (wrap : α → Value F) : Res α → Option (Reply F)
  | .ok x => some (.ok (wrap x))
  | .error .panic => some (.error .panic)
  | .error .diverge => none
  | .error e => some (.error (.coding e))

/-- The calls whose result is determined by the object: decoding, lookups, sizes, prefix search and text. -/
inductive Query where
  | decode (ids : List TokenID) (includeSpecial : Bool)
  | tokenToId (token : Token)
  | baseTokenToId (token : Token)
  | specialTokenToId (token : Str)
  | idToToken (id : TokenID)
  | idToBaseToken (id : TokenID)
  | idToSpecialToken (id : TokenID)
  | isSpecial (id : TokenID)
  | isBase (id : TokenID)
  | specialTokens
  | vocabSize
  | baseVocabSize
  | specialVocabSize
  | commonPrefixSearch (text : Str)
  | toString
  | getState

/-- Their replies, bindings/python/src/lib.rs:71-79 (`decode`), 91-129 (lookups), 135-149 (sizes), 164-175
(`common_prefix_search`), 192-194 (`to_string`) and 198-206 (`__getstate__`; writing a tokenizer as JSON never fails). -/
def answer (N : NumText F) (t : Tokenizer F) : Query → Option (Reply F)
  | .decode ids flag => reply .text (t.decode ids flag)
  | .tokenToId token => some (.ok (.id? (t.tokenToId token)))
  | .baseTokenToId token => some (.ok (.id? (t.baseTokenToId token)))
  | .specialTokenToId token => some (.ok (.id? (t.specialTokenToId token)))
  | .idToToken id => some (.ok (.bytes? (t.idToToken id)))
  | .idToBaseToken id => some (.ok (.scored? ((t.idToBaseToken id).map fun token => (token.value, token.score))))
  | .idToSpecialToken id => some (.ok (.text? (t.idToSpecialToken id)))
  | .isSpecial id => some (.ok (.bool (t.isSpecial id)))
  | .isBase id => some (.ok (.bool (t.isBase id)))
  | .specialTokens => some (.ok (.texts t.specialTokens))
  | .vocabSize => some (.ok (.size t.vocabSize))
  | .baseVocabSize => some (.ok (.size t.baseVocabSize))
  | .specialVocabSize => some (.ok (.size t.specialVocabSize))
  | .commonPrefixSearch text => some (.ok (.ids ((t.model.commonPrefixSearch (enc text)).map (·.1))))
  | .toString => some (.ok (.text (t.toString N)))
  | .getState => some (.ok (.state (enc (t.toString N))))

/-- A call; `self` is the number of the object. -/
inductive Call (F : Type) where
  | query (self : Nat) (q : Query)
  | encode (self : Nat) (text : Str) (dropout : F)
  | encodeOrdinary (self : Nat) (text : Str) (dropout : F)
  | encodeBatch (self : Nat) (texts : List Str) (dropout : F)
  | encodeOrdinaryBatch (self : Nat) (texts : List Str) (dropout : F)
  | decodeBatch (self : Nat) (ids : List (List TokenID)) (includeSpecial : Bool)
  | addSpecialTokens (self : Nat) (tokens : List Str)
  | save (self : Nat) (path : Str)
  | setState (self : Nat) (bytes : List UInt8)
  | fromStr (text : Str)
  | fromFile (path : Str)

/-- `serde_json::from_slice`: bytes that are not UTF-8 are an error, others are read like a string. -/
def fromSlice (N : NumText F) (bytes : List UInt8) : Option (Tokenizer F) := (fromUtf8 bytes).bind (Tokenizer.fromStr N)

/-- The tokenizer in a file, `Tokenizer::from_file`, src/tokenizer.rs:279-282. -/
def load (N : NumText F) (files : Files) (path : Str) : Option (Tokenizer F) := (files path).bind (fromSlice N)

/-- One call, from start to end. -/
inductive Step [ScoreOps F] (norm : UnicodeForm → Str → Str) (N : NumText F) : World F → Call F → Reply F → World F → Prop
  /-- Calls that only look at the object. -/
  | query {w : World F} {k : Nat} {t : Tokenizer F} {q : Query} {r : Reply F} : w.objects[k]? = some t → answer N t q = some r →
    Step norm N w (.query k q) r w
  /-- bindings/python/src/lib.rs:41-43. -/
  | encode {w : World F} {k : Nat} {t : Tokenizer F} {s : Str} {d : F} {r : Reply F} (rnd : Nat → F) : w.objects[k]? = some t →
    reply .ids (t.encode norm s d rnd) = some r → Step norm N w (.encode k s d) r w
  /-- bindings/python/src/lib.rs:45-49. -/
  | encodeOrdinary {w : World F} {k : Nat} {t : Tokenizer F} {s : Str} {d : F} {r : Reply F} (rnd : Nat → F) :
    w.objects[k]? = some t → reply .ids (t.encodeOrdinary norm s d rnd) = some r → Step norm N w (.encodeOrdinary k s d) r w
  /-- bindings/python/src/lib.rs:51-59. -/
  | encodeBatch {w : World F} {k : Nat} {t : Tokenizer F} {l : List Str} {d : F} {r : Reply F} {x : Res (List (List TokenID))} :
    w.objects[k]? = some t → t.EncodeBatch norm l d x → reply .batch x = some r → Step norm N w (.encodeBatch k l d) r w
  /-- bindings/python/src/lib.rs:61-69. -/
  | encodeOrdinaryBatch {w : World F} {k : Nat} {t : Tokenizer F} {l : List Str} {d : F} {r : Reply F}
    {x : Res (List (List TokenID))} : w.objects[k]? = some t → t.EncodeOrdinaryBatch norm l d x → reply .batch x = some r →
    Step norm N w (.encodeOrdinaryBatch k l d) r w
  /-- bindings/python/src/lib.rs:81-89. -/
  | decodeBatch {w : World F} {k : Nat} {t : Tokenizer F} {l : List (List TokenID)} {flag : Bool} {r : Reply F}
    {x : Res (List Str)} : w.objects[k]? = some t → t.DecodeBatch l flag x → reply .texts x = some r →
    Step norm N w (.decodeBatch k l flag) r w
  /-- bindings/python/src/lib.rs:131-133. -/
  | addSpecialTokens {w : World F} {k : Nat} {t : Tokenizer F} {l : List Str} : w.objects[k]? = some t →
    Step norm N w (.addSpecialTokens k l) (.ok .nothing) { w with objects := w.objects.set k (t.addSpecialTokens l) }
  /-- bindings/python/src/lib.rs:151-153: the file is written. -/
  | save {w : World F} {k : Nat} {t : Tokenizer F} {path : Str} : w.objects[k]? = some t →
    Step norm N w (.save k path) (.ok .nothing) { w with files := w.files.write path (saved N t) }
  /-- bindings/python/src/lib.rs:154-160: the file cannot be opened; the error is restored, fetched and dropped. -/
  | saveRefused {w : World F} {k : Nat} {t : Tokenizer F} {path : Str} : w.objects[k]? = some t →
    Step norm N w (.save k path) (.ok .nothing) w
  /-- The same when writing stops after `n` bytes, for example because the disk is full. -/
  | saveStopped {w : World F} {k : Nat} {t : Tokenizer F} {path : Str} (n : Nat) : w.objects[k]? = some t →
    Step norm N w (.save k path) (.ok .nothing) { w with files := w.files.write path ((saved N t).take n) }
  /-- bindings/python/src/lib.rs:210-223. -/
  | setState {w : World F} {k : Nat} {t u : Tokenizer F} {b : List UInt8} : w.objects[k]? = some t → fromSlice N b = some u →
    Step norm N w (.setState k b) (.ok .nothing) { w with objects := w.objects.set k u }
  /-- bindings/python/src/lib.rs:213-218: `?` returns before the assignment. -/
  | setStateRefused {w : World F} {k : Nat} {t : Tokenizer F} {b : List UInt8} : w.objects[k]? = some t → fromSlice N b = none →
    Step norm N w (.setState k b) (.error .unpickling) w
  /-- bindings/python/src/lib.rs:178-182. -/
  | fromStr {w : World F} {text : Str} {u : Tokenizer F} : Tokenizer.fromStr N text = some u →
    Step norm N w (.fromStr text) (.ok (.object w.objects.length)) { w with objects := w.objects ++ [u] }
  | fromStrRefused {w : World F} {text : Str} : Tokenizer.fromStr N text = none →
    Step norm N w (.fromStr text) (.error .loading) w
  /-- bindings/python/src/lib.rs:185-189. -/
  | fromFile {w : World F} {path : Str} {u : Tokenizer F} : load N w.files path = some u →
    Step norm N w (.fromFile path) (.ok (.object w.objects.length)) { w with objects := w.objects ++ [u] }
  | fromFileRefused {w : World F} {path : Str} : load N w.files path = none →
    Step norm N w (.fromFile path) (.error .loading) w

/-- A program's calls and what they returned.  Between them other programs may do anything to the files. -/
inductive Session [ScoreOps F] (norm : UnicodeForm → Str → Str) (N : NumText F) :
    World F → List (Call F × Reply F) → World F → Prop
  | nil {w : World F} : Session norm N w [] w
  | cons {w v u : World F} {c : Call F} {r : Reply F} {l : List (Call F × Reply F)} : Step norm N w c r v →
    Session norm N v l u → Session norm N w ((c, r) :: l) u
  | others {w u : World F} {l : List (Call F × Reply F)} (files : Files) : Session norm N { w with files := files } l u →
    Session norm N w l u

end Tokengeex.Python

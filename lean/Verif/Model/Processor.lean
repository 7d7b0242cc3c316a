import Verif.Model.Utf8
/-
src/processor.rs (the transformations; serialisation is in Model/Serde.lean)
-/
namespace Tokengeex

/-- `UnicodeProcessor`, src/processor.rs:111-116. -/
inductive UnicodeForm where
  | nfc | nfd | nfkc | nfkd
  deriving DecidableEq, Repr

/-- `ProcessorWrapper`, src/processor.rs:15-18. -/
inductive Processor where
  | crlf
  | unicode (form : UnicodeForm)
  deriving DecidableEq, Repr

/-- Loop of `str::replace` (Rust std) for a non-empty pattern: left to right, non-overlapping. Every iteration
consumes at least one character, so `fuel = s.length` is never exhausted. -/
def replaceGo (pat rep : Str) : Nat → Str → Str
  | 0, s => s
  | _ + 1, [] => []
  | fuel + 1, c :: cs =>
    if pat.isPrefixOf (c :: cs) then rep ++ replaceGo pat rep fuel ((c :: cs).drop pat.length)
    else c :: replaceGo pat rep fuel cs

/-- `s.replace(pat, rep)` (Rust std), `pat` non-empty. -/
def replace (pat rep s : Str) : Str := replaceGo pat rep s.length s

/-- `CrlfProcessor::preprocess`, src/processor.rs:47-49. -/
def crlfPreprocess (s : Str) : Str := replace ['\r', '\n'] ['\n'] s

namespace Processor

/-- `ProcessorWrapper::preprocess`, src/processor.rs:21-26, 47-49, 125-132.  The Unicode normalisation forms come
from the crate `unicode-normalization`; here they are an arbitrary function `norm`. -/
def preprocess (norm : UnicodeForm → Str → Str) (p : Processor) (s : Str) : Str :=
  match p with
  | crlf => crlfPreprocess s
  | unicode form => norm form s

/-- `ProcessorWrapper::postprocess`, src/processor.rs:28-33, 51-53, 134-136. -/
def postprocess (p : Processor) (s : Str) : Str :=
  match p with
  | crlf => s
  | unicode _ => s

end Processor
end Tokengeex

import Verif.Model.Float64
import Verif.Model.Processor
/-
Reading training data, src/cli.rs.
-/
namespace Tokengeex

/-- `slice::split` and `str::split` (Rust std) with a predicate on single elements: the parts between the separators,
including empty ones; at least one part. -/
def splitOn {α : Type} (sep : α → Bool) : List α → List (List α)
  | [] => [[]]
  | a :: rest =>
    if sep a then [] :: splitOn sep rest
    else match splitOn sep rest with
      | [] => [[a]]
      | part :: parts => (a :: part) :: parts

/-- `x as usize` for a double: rounds towards zero; NaN and negative numbers give 0, too large ones `usize::MAX`. -/
def F64.toUsize : F64 → Nat
  | nan => 0
  | inf neg => if neg then 0 else 2 ^ 64 - 1
  | num neg n => if neg then 0 else min (n / 2 ^ 1074) (2 ^ 64 - 1)

/-- `Source`, src/cli.rs:204-214. -/
structure Source where
  name : Str
  processedSamples : List Str
  totalBytes : Nat
  processedTotalBytes : Nat
  totalChars : Nat
  processedTotalChars : Nat
  deriving DecidableEq, Repr

namespace Source

/-- The samples of a file, src/cli.rs:263-271.  `none` is the panic on a sample that is not valid UTF-8. -/
def samplesOf (contents : List UInt8) : Option (List Str) :=
  ((splitOn (· == 0) contents).mapM fromUtf8).map fun samples => samples.filter fun s => !s.isEmpty

/-- Number of samples used, src/cli.rs:278. -/
def quota (samples : Nat) (proportion : F64) : Nat := ((F64.ofNat samples).mul proportion).toUsize

/-- The processing of one sample, src/cli.rs:279-285. -/
def process (norm : UnicodeForm → Str → Str) (processors : List Processor) (s : Str) : Str :=
  processors.foldl (fun sample p => p.preprocess norm sample) s

/-- The body of the loop of `load_sources`, src/cli.rs:240-312.  `files` is the file system, `parse` is `str::parse::<f64>`
of Rust std.  Logging is left out. -/
def load (norm : UnicodeForm → Str → Str) (files : Str → Option (List UInt8)) (parse : Str → Option F64)
    (processors : List Processor) (source : Str) : Res Source :=
  match splitOn (· == ':') source with
  | name :: path :: rest =>
    if rest.length > 1 then .error .panic
    else
      let proportion := match rest with
        | [] => some (F64.ofNat 1)
        | p :: _ => parse p
      match proportion, files path with
      | some proportion, some contents =>
        match samplesOf contents with
        | none => .error .panic
        | some samples =>
          let processed := ((samples.take (quota samples.length proportion)).map (process norm processors)).filter
            fun s => !s.isEmpty
          .ok { name := name, processedSamples := processed,
                totalBytes := (samples.map fun s => (enc s).length).sum,
                processedTotalBytes := (processed.map fun s => (enc s).length).sum,
                totalChars := (samples.map List.length).sum,
                processedTotalChars := (processed.map List.length).sum }
      | _, _ => .error .panic
  | _ => .error .panic

/-- `load_sources`, src/cli.rs:237-314: the sources in order (`par_iter().map().collect()` keeps the order); a panic for one
of them is a panic of the whole. -/
def loadAll (norm : UnicodeForm → Str → Str) (files : Str → Option (List UInt8)) (parse : Str → Option F64)
    (processors : List Processor) (sources : List Str) : Res (List Source) :=
  sources.mapM (load norm files parse processors)

/-- A possible result of `shuffled_train_samples`, src/cli.rs:370-379: the samples of all sources in any order. -/
def Shuffled (sources : List Source) (samples : List Str) : Prop :=
  samples.Perm (sources.flatMap processedSamples)

end Source

/-- One turn of the loop of `load_processors`, src/cli.rs:221-228. -/
def Processor.ofFlag (name : Str) : Res Processor :=
  if name = "crlf".toList then .ok .crlf
  else if name = "nfc".toList then .ok (.unicode .nfc)
  else if name = "nfd".toList then .ok (.unicode .nfd)
  else if name = "nfkc".toList then .ok (.unicode .nfkc)
  else if name = "nfkd".toList then .ok (.unicode .nfkd)
  else .error .panic

/-- `load_processors`, src/cli.rs:217-235. -/
def loadProcessors (names : List Str) : Res (List Processor) := names.mapM Processor.ofFlag

end Tokengeex

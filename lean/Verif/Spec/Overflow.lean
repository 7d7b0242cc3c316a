import Verif.Model.Counting
import Verif.Model.Utf8
/-
What is read while counters are being filled.
-/
namespace Tokengeex.Spec

/-- Some moment while workers with these programs count the samples: any prefix of any interleaving, with any chunk size. -/
def Moment {α K : Type} [DecidableEq K] (Worker : List α → List (Parallel.Op K Nat) → Prop) (samples : List α)
    (s : Parallel.State K Nat) : Prop :=
  ∃ n programs sched, 0 < n ∧ List.Forall₂ Worker (Parallel.chunks n samples) programs ∧
    (Parallel.State.init (fun _ => 0) programs).run sched = some s

/-- Number of bytes of all samples. -/
def totalBytes (samples : List Str) : Nat := (samples.map fun s => (enc s).length).sum

end Tokengeex.Spec

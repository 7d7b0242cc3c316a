import Verif.Model.Task
/-
src/task.rs again, with what `Ordering::Relaxed` (src/task.rs:4) allows: a load by the monitor may miss recent stores, also of
one counter and not of the other, but never sees an older value of a counter than it has seen before.  A `fetch_add` always
adds to the latest value.
-/
namespace Tokengeex.Task

/-- The state in which every store has arrived, the values that each counter has had so far, and what the monitor has seen. -/
structure Weak where
  now : State
  /-- the values of `num_samples_processed`, oldest first -/
  samples : List Nat
  /-- the values of `num_bytes_processed`, oldest first -/
  bytes : List Nat
  /-- which of the values of the counters the monitor has seen last -/
  sawSamples : Nat
  sawBytes : Nat
  /-- the numbers of samples in the progress messages so far, src/task.rs:79-86 -/
  messages : List Nat

/-- `Task::new` and `Task::start`, src/task.rs:31-51. -/
def Weak.init (chunks : List (List Nat)) : Weak :=
  { now := State.init chunks, samples := [0], bytes := [0], sawSamples := 0, sawBytes := 0, messages := [] }

/-- The decision of the monitor, src/task.rs:67-75, for the numbers it has loaded; no message for 0 percent. -/
def Weak.decide (w : Weak) (n : Nat) : Weak :=
  if n ≥ w.now.numSamples then { w with now := { w.now with monitor := .reporting } }
  else { w with
    now := { w.now with monitor := .sleeping }
    messages := if n = 0 then w.messages else w.messages ++ [n] }

/-- One step. -/
inductive Weak.Step : Weak → Weak → Prop
  /-- a worker, src/task.rs:116-127 -/
  | worker (i : Nat) {w : Weak} {s : State} : w.now.workerStep i = some s →
    Step w { w with now := s, samples := w.samples ++ [s.processed], bytes := w.bytes ++ [s.bytes] }
  /-- `Task::finish`, src/task.rs:110-112, after the workers -/
  | main {w : Weak} : (∀ v ∈ w.now.workers, v = .done) → Step w { w with now := { w.now with finished := true } }
  /-- the monitor wakes up, line 58 -/
  | wake {w : Weak} : w.now.monitor = .sleeping → Step w { w with now := { w.now with monitor := .checking } }
  /-- line 60 sees `false`, which may be out of date -/
  | unfinished {w : Weak} : w.now.monitor = .checking → Step w { w with now := { w.now with monitor := .loading } }
  /-- line 60 sees `true` -/
  | finished {w : Weak} : w.now.monitor = .checking → w.now.finished = true →
    Step w { w with now := { w.now with monitor := .reporting } }
  /-- line 64 -/
  | load {w : Weak} (k n : Nat) : w.now.monitor = .loading → w.sawSamples ≤ k → w.samples[k]? = some n →
    Step w { w with now := { w.now with monitor := .loadingBytes n }, sawSamples := k }
  /-- line 65 -/
  | loadBytes {w : Weak} (k n b : Nat) : w.now.monitor = .loadingBytes n → w.sawBytes ≤ k → w.bytes[k]? = some b →
    Step w { w with now := { w.now with monitor := .deciding n b }, sawBytes := k }
  /-- lines 67-86 -/
  | decided {w : Weak} (n b : Nat) : w.now.monitor = .deciding n b → Step w (w.decide n)
  /-- lines 90-98 -/
  | report {w : Weak} (k b : Nat) : w.now.monitor = .reporting → w.sawBytes ≤ k → w.bytes[k]? = some b →
    Step w { w with now := { w.now with monitor := .stopped b }, sawBytes := k }

end Tokengeex.Task

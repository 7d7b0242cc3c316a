import Verif.Model.Parallel
/-
src/task.rs: progress counters and the monitor thread.
-/
namespace Tokengeex.Task

/-- A worker using a `LocalTask`, src/task.rs:24-28: it records its samples one by one (`sizes` are the byte lengths
still to be recorded, src/task.rs:116-118), then executes the two `fetch_add` of `LocalTask::finish`,
src/task.rs:120-127. -/
inductive Worker where
  | working (chunkSamples : Nat) (bytes : Nat) (sizes : List Nat)
  | halfway (bytes : Nat)
  | done
  deriving DecidableEq, Repr

/-- The monitor thread of `Task::start`, src/task.rs:56-99. -/
inductive Monitor where
  | sleeping
  /-- before `finished.load`, line 60 -/
  | checking
  /-- before `num_samples_processed.load`, line 64 -/
  | loading
  /-- before `num_bytes_processed.load`, line 65; holds the number of samples -/
  | loadingBytes (samples : Nat)
  /-- before the comparison in line 67 -/
  | deciding (samples bytes : Nat)
  /-- after the loop, before line 90 -/
  | reporting
  /-- has logged `FINISHED` with this number of bytes -/
  | stopped (bytes : Nat)
  deriving DecidableEq, Repr

/-- `TaskInner`, src/task.rs:15-22, the workers and the monitor.  The atomics are accessed with `Relaxed`; the model lets
every load see the latest store, i.e. stores become visible at once. -/
structure State where
  numSamples : Nat
  processed : Nat
  bytes : Nat
  finished : Bool
  workers : List Worker
  monitor : Monitor
  deriving DecidableEq, Repr

/-- `Task::new` and `Task::start` on chunks of samples of the given byte lengths, src/task.rs:31-51; each worker starts
with `task.local(chunk.len())`, src/task.rs:102-108. -/
def State.init (chunks : List (List Nat)) : State :=
  { numSamples := chunks.flatten.length, processed := 0, bytes := 0, finished := false,
    workers := chunks.map fun c => .working c.length 0 c, monitor := .sleeping }

/-- Who moves. -/
inductive Actor where
  | worker (i : Nat)
  | monitor
  /-- the thread that called `start` and calls `Task::finish`, src/task.rs:110-112, after the workers -/
  | main

/-- One step of the monitor; progress messages are not modelled. -/
def State.monitorStep (s : State) : Option State :=
  match s.monitor with
  | .sleeping => some { s with monitor := .checking }
  | .checking => some { s with monitor := if s.finished then .reporting else .loading }
  | .loading => some { s with monitor := .loadingBytes s.processed }
  | .loadingBytes n => some { s with monitor := .deciding n s.bytes }
  | .deciding n _ => some { s with monitor := if n ≥ s.numSamples then .reporting else .sleeping }
  | .reporting => some { s with monitor := .stopped s.bytes }
  | .stopped _ => none

/-- One step of a worker. -/
def State.workerStep (s : State) (i : Nat) : Option State :=
  match s.workers[i]? with
  | some (.working n bytes (size :: sizes)) => some { s with workers := s.workers.set i (.working n (bytes + size) sizes) }
  | some (.working n bytes []) => some { s with processed := s.processed + n, workers := s.workers.set i (.halfway bytes) }
  | some (.halfway bytes) => some { s with bytes := s.bytes + bytes, workers := s.workers.set i .done }
  | some .done => none
  | none => none

/-- One step. -/
def State.step (s : State) : Actor → Option State
  | .worker i => s.workerStep i
  | .monitor => s.monitorStep
  | .main => if s.workers.all (· == .done) then some { s with finished := true } else none

/-- A schedule. -/
def State.run : State → List Actor → Option State
  | s, [] => some s
  | s, a :: rest => (s.step a).bind fun s' => s'.run rest

end Tokengeex.Task

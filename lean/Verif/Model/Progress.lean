import Verif.Model.Float64
/-
src/task.rs: the numbers in the messages of a task.
-/
namespace Tokengeex.Task

/-- The number of chunks that `Task::new` announces, src/task.rs:31-39.  A chunk size of zero divides by zero: a panic. -/
def announcedChunks (numSamples chunkSize : Nat) : Option Nat :=
  if chunkSize = 0 then none else some ((numSamples + chunkSize) / chunkSize)

/-- `percent_done`, src/task.rs:71. -/
def percentDone (processed numSamples : Nat) : F64 := ((F64.ofNat processed).div (F64.ofNat numSamples)).mul (F64.ofNat 100)

/-- `mb_per_sec`, src/task.rs:138-140, with the seconds that have passed. -/
def mbPerSec (n : Nat) (elapsed : F64) : F64 := (((F64.ofNat n).div (F64.ofNat 1024)).div (F64.ofNat 1024)).div elapsed

/-- `eta`, src/task.rs:77-78, before it is rounded. -/
def eta (elapsed percent : F64) : F64 := (elapsed.div percent).mul ((F64.ofNat 100).sub percent)

/-- The numbers of a progress message, src/task.rs:80-87.  How they are printed (`{:>6.2}`, `round`) is not modelled. -/
structure Line where
  percent : F64
  eta : F64
  speed : F64
  perThread : F64
  deriving DecidableEq, Repr

/-- What the monitor does after it has loaded the counters. -/
inductive Look where
  /-- `break` -/
  | stop
  /-- `continue` -/
  | silent
  /-- a message, then the next round -/
  | says (line : Line)
  deriving DecidableEq, Repr

/-- The rest of the body of the loop, src/task.rs:67-87, for the values of the two counters.  The clock is read three times. -/
def look (numSamples threads processed bytes : Nat) (elapsed₁ elapsed₂ elapsed₃ : F64) : Look :=
  if numSamples ≤ processed then .stop
  else
    let percent := percentDone processed numSamples
    if F64.le percent (.num false 0) && F64.le (.num false 0) percent then .silent
    else .says { percent, eta := eta elapsed₁ percent, speed := mbPerSec bytes elapsed₂,
                 perThread := (mbPerSec bytes elapsed₃).div (F64.ofNat threads) }

end Tokengeex.Task

import Verif.Model.Tokenizer
/-
src/tokenizer.rs:102-123 and 178-187: `inputs.into_par_iter().map(f).collect::<Result<Vec<_>>>()`.

What rayon (an external crate) does in `collect` for `Result` is modelled as a transition system: `map(f)`, then the
closure that stores the first error in `saved_error: Mutex<Option<E>>` with `try_lock`, then `while_some()`, which
raises the flag `full` after a `None` and lets unstarted items be dropped once the flag is up.  Any item may take its
next step at any time; rayon's own schedules (leaves of consecutive items, work stealing) are among these.  The Vec is
filled in input order.
-/
namespace Tokengeex.Batch

/-- Where one element of the batch is. -/
inductive Item (β : Type) where
  /-- not started -/
  | waiting
  /-- `f` has returned -/
  | computed (r : Res β)
  /-- an error, holding the lock of `saved_error` -/
  | holding (e : Err)
  /-- an error that is dealt with, before `full` is set -/
  | erred
  /-- consumed: `Some(value)` or `None` -/
  | finished (o : Option β)
  /-- dropped because `full` was set -/
  | skipped

/-- The shared state: elements in input order, the owner of the lock, `saved_error` and the flag of `while_some`. -/
structure State (β : Type) where
  items : List (Item β)
  lock : Option Nat
  saved : Option Err
  full : Bool

variable {β : Type}

/-- All elements waiting. -/
def State.init (n : Nat) : State β := { items := List.replicate n .waiting, lock := none, saved := none, full := false }

/-- One step of one thread.  `R i r` says that the closure may return `r` on the `i`-th element (a relation, because
of the random draws; an element on which the closure does not return never takes `compute`). -/
inductive Step (R : Nat → Res β → Prop) : State β → State β → Prop where
  | compute {s : State β} {i : Nat} {r : Res β} : s.items[i]? = some .waiting → R i r →
      Step R s { s with items := s.items.set i (.computed r) }
  | skip {s : State β} {i : Nat} : s.items[i]? = some .waiting → s.full = true →
      Step R s { s with items := s.items.set i .skipped }
  | keep {s : State β} {i : Nat} {v : β} : s.items[i]? = some (.computed (.ok v)) →
      Step R s { s with items := s.items.set i (.finished (some v)) }
  | lock {s : State β} {i : Nat} {e : Err} : s.items[i]? = some (.computed (.error e)) → s.lock = none →
      Step R s { s with items := s.items.set i (.holding e), lock := some i }
  | lockBusy {s : State β} {i j : Nat} {e : Err} : s.items[i]? = some (.computed (.error e)) → s.lock = some j →
      Step R s { s with items := s.items.set i .erred }
  | write {s : State β} {i : Nat} {e : Err} : s.items[i]? = some (.holding e) →
      Step R s { s with items := s.items.set i .erred, lock := none, saved := some (s.saved.getD e) }
  | raise {s : State β} {i : Nat} : s.items[i]? = some .erred →
      Step R s { s with items := s.items.set i (.finished none), full := true }

/-- Any number of steps. -/
inductive Steps (R : Nat → Res β → Prop) : State β → State β → Prop where
  | refl (s : State β) : Steps R s s
  | tail {s t u : State β} : Steps R s t → Step R t u → Steps R s u

/-- Nothing left to do: every element is consumed or dropped. -/
def State.Final (s : State β) : Prop := ∀ x ∈ s.items, (∃ o, x = .finished o) ∨ x = .skipped

/-- The value an element contributes to the `Vec`. -/
def Item.value? : Item β → Option β
  | .finished (some v) => some v
  | _ => none

/-- What `collect` returns: the saved error, or the collected values in input order. -/
def State.result (s : State β) : Res (List β) :=
  match s.saved with
  | some e => .error e
  | none => .ok (s.items.filterMap Item.value?)

/-- `r` is a possible result of the batch call on `n` elements. -/
def Outcome (R : Nat → Res β → Prop) (n : Nat) (r : Res (List β)) : Prop :=
  ∃ s, Steps R (State.init n) s ∧ s.Final ∧ s.result = r

end Tokengeex.Batch

namespace Tokengeex.Tokenizer
variable {F : Type}

/-- `encode_batch`, src/tokenizer.rs:102-111: every element is encoded with its own random draws (`thread_rng`). -/
def EncodeBatch [ScoreOps F] (norm : UnicodeForm → Str → Str) (t : Tokenizer F) (inputs : List Str) (dropout : F)
    (r : Res (List (List TokenID))) : Prop :=
  Batch.Outcome (fun i x => ∃ s rnd, inputs[i]? = some s ∧ t.encode norm s dropout rnd = x ∧ x ≠ .error .diverge)
    inputs.length r

/-- `encode_ordinary_batch`, src/tokenizer.rs:114-123. -/
def EncodeOrdinaryBatch [ScoreOps F] (norm : UnicodeForm → Str → Str) (t : Tokenizer F) (inputs : List Str) (dropout : F)
    (r : Res (List (List TokenID))) : Prop :=
  Batch.Outcome (fun i x => ∃ s rnd, inputs[i]? = some s ∧ t.encodeOrdinary norm s dropout rnd = x) inputs.length r

/-- `decode_batch`, src/tokenizer.rs:178-187. -/
def DecodeBatch (t : Tokenizer F) (inputs : List (List TokenID)) (flag : Bool) (r : Res (List Str)) : Prop :=
  Batch.Outcome (fun i x => ∃ ids, inputs[i]? = some ids ∧ t.decode ids flag = x) inputs.length r

end Tokengeex.Tokenizer

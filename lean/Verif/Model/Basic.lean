/-
Shared vocabulary of the model: outcomes, indexing, and the operations of `f64` that the code uses.
-/
namespace Tokengeex

/-- Ways a call can fail to return a value.

* `noPath`, `outOfBounds`: `Error::NoPath` / `Error::TokenIdOutOfBounds`, src/lib.rs:219-224.
* `panic`: any Rust panic (index out of bounds, `unwrap`, `expect`, `panic!`); the message is dropped.
* `diverge`: a loop of the model ran out of fuel.  It is not an outcome of the Rust code: a theorem saying
  that a call yields `diverge` for every fuel says that the Rust loop does not terminate. -/
inductive Err where
  | noPath (pos len : Nat)
  | outOfBounds (id : Nat)
  | panic
  | diverge
  deriving DecidableEq, Repr

/-- `Result<T>` of src/lib.rs:264, with panics made explicit. -/
abbrev Res (α : Type) := Except Err α

instance {α : Type} [DecidableEq α] : DecidableEq (Res α)
  | .ok a, .ok b => if h : a = b then isTrue (h ▸ rfl) else isFalse (fun h' => h (by injection h'))
  | .error a, .error b => if h : a = b then isTrue (h ▸ rfl) else isFalse (fun h' => h (by injection h'))
  | .ok _, .error _ => isFalse (by intro h; cases h)
  | .error _, .ok _ => isFalse (by intro h; cases h)

/-- `v[i]` on a `Vec`/slice: panics out of bounds. -/
def idx {α : Type} (l : List α) (i : Nat) : Res α :=
  match l[i]? with
  | some a => .ok a
  | none => .error .panic

/-- `v[i] = a` on a `Vec`: panics out of bounds. -/
def setIdx {α : Type} (l : List α) (i : Nat) (a : α) : Res (List α) :=
  if i < l.length then .ok (l.set i a) else .error .panic

/-- The `f64` operations used by segmentation (`0.0`, `+`, `<`, `<=`).  No laws are assumed here, so a theorem
over an arbitrary `ScoreOps` holds in particular for IEEE doubles with NaN and infinities. `a > b` in Rust is
`lt b a`. -/
class ScoreOps (F : Type) where
  zero : F
  add : F → F → F
  lt : F → F → Bool
  le : F → F → Bool

/-- Integers as scores: used for concrete examples. -/
instance : ScoreOps Int where
  zero := 0
  add := (· + ·)
  lt a b := decide (a < b)
  le a b := decide (a ≤ b)

/-- `TokenID = u32`, src/lib.rs:19.  Unbounded here; C56 (Model/U32.lean) models the casts. (A macro, so that
the type is literally `Nat`.) -/
macro "TokenID" : term => `(Nat)

/-- `Token = Vec<u8>`, src/lib.rs:23. -/
abbrev Token := List UInt8

/-- `ScoredToken`, src/lib.rs:27-31. -/
structure ScoredToken (F : Type) where
  value : Token
  score : F
  keep : Bool
  deriving DecidableEq, Repr

/-- `ScoredToken::len`, src/lib.rs:70-72. -/
def ScoredToken.len {F : Type} (t : ScoredToken F) : Nat := t.value.length

/-- `ScoredToken::clone_with_score`, src/lib.rs:54-60. -/
def ScoredToken.cloneWithScore {F : Type} (t : ScoredToken F) (s : F) : ScoredToken F :=
  { value := t.value, score := s, keep := t.keep }

end Tokengeex

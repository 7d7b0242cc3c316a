import Verif.Model.Parallel
import Mathlib.Data.List.Forall2
/-
Frequency tables (`HashMap<K, usize>`).
-/
namespace Tokengeex
variable {K : Type}

/-- A `HashMap<K, usize>` that is filled through `*map.entry(k).or_insert(0) += 1`: its entries, each key once.  The
order of the list carries no meaning: whoever iterates over a map sees any permutation of it.  The numbers are
natural numbers; C114 bounds them. -/
abbrev FreqTable (K : Type) := List (K × Nat)

/-- `*map.entry(k).or_insert(0) += 1`. -/
def FreqTable.incr [DecidableEq K] : FreqTable K → K → FreqTable K
  | [], k => [(k, 1)]
  | e :: t, k => if e.1 = k then (e.1, e.2 + 1) :: t else e :: FreqTable.incr t k

/-- What `into_iter().collect()` may return for a shared table whose entry for `k` is `val k` (0 if absent; the code
never stores 0): every entry once, in any order. -/
def Iteration (val : K → Nat) (entries : List (K × Nat)) : Prop :=
  (entries.map (·.1)).Nodup ∧ ∀ k n, (k, n) ∈ entries ↔ val k = n ∧ n ≠ 0

/-- `for` over all chunks at once: `programs` are possible programs of the workers on the chunks of `samples`, and `val`
is what the shared table holds when they have all returned, for some chunk size (`par_chunk_size` gives one, C51) and
some schedule. -/
def ParCount {α : Type} [DecidableEq K] {M : Type} [Zero M] [Add M] (Worker : List α → List (Parallel.Op K M) → Prop)
    (samples : List α) (val : K → M) : Prop :=
  ∃ n programs sched s, 0 < n ∧ List.Forall₂ Worker (Parallel.chunks n samples) programs ∧
    (Parallel.State.init (fun _ => 0) programs).run sched = some s ∧ s.Finished ∧ val = s.val

end Tokengeex

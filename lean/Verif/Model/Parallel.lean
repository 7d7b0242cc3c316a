import Verif.Model.Basic
/-
Workers that add up counts in shared tables: src/merge.rs:53-76, src/mine.rs:25-39, src/generate.rs:58-134,
src/prune.rs:72-115 and src/prune.rs:211-242.

`samples.par_chunks(chunk_size).for_each(f)` runs `f` once on every chunk; several chunks may be processed at the same
time.  Every chunk is a thread here, so the schedules of rayon (which runs several chunks one after the other on one OS
thread) are among the schedules of the model.  What a worker does outside the shared tables depends on its chunk only;
the model of a worker is therefore its sequence of operations on shared state.

`*table.entry(key).or_insert(0) += n` is not atomic by itself: it is a `load` followed by a `store`.  The lock around
it (the `RwLock` of the whole table in merge.rs and prune.rs, the lock of the key's shard inside `DashMap::entry` in
mine.rs and generate.rs) is an explicit operation.  Memory is sequentially consistent between lock operations, which is
what the locks guarantee.
-/
namespace Tokengeex.Parallel
variable {K M : Type}

/-- Operations on shared state. -/
inductive Op (K M : Type) where
  /-- take the lock; waits while somebody holds it -/
  | acquire (lock : Nat)
  /-- read the entry of `key` (0 if absent) -/
  | load (key : K)
  /-- write back the value read, plus `n` -/
  | store (key : K) (n : M)
  /-- drop the lock guard -/
  | release (lock : Nat)

/-- A worker: the value it has read and what it still has to do. -/
structure Thread (K M : Type) where
  reg : M
  ops : List (Op K M)

/-- Shared table, owners of the locks, workers. -/
structure State (K M : Type) where
  val : K → M
  owner : Nat → Option Nat
  threads : List (Thread K M)

/-- Workers about to start on their programs. -/
def State.init [Zero M] (val : K → M) (programs : List (List (Op K M))) : State K M :=
  { val := val, owner := fun _ => none, threads := programs.map fun ops => { reg := 0, ops := ops } }

/-- The next operation of worker `i`; `none` if it has finished or has to wait. -/
def State.step [DecidableEq K] [Add M] (s : State K M) (i : Nat) : Option (State K M) :=
  match s.threads[i]? with
  | none => none
  | some t =>
    match t.ops with
    | [] => none
    | .acquire l :: rest =>
      if s.owner l = none then
        some { s with owner := fun l' => if l' = l then some i else s.owner l',
                      threads := s.threads.set i { t with ops := rest } }
      else none
    | .load k :: rest => some { s with threads := s.threads.set i { reg := s.val k, ops := rest } }
    | .store k n :: rest =>
      some { s with val := fun k' => if k' = k then t.reg + n else s.val k',
                    threads := s.threads.set i { t with ops := rest } }
    | .release l :: rest =>
      some { s with owner := fun l' => if l' = l then none else s.owner l',
                    threads := s.threads.set i { t with ops := rest } }

/-- A schedule says which worker takes each step; `none` if it lets a worker move that cannot. -/
def State.run [DecidableEq K] [Add M] : State K M → List Nat → Option (State K M)
  | s, [] => some s
  | s, i :: sched => (s.step i).bind fun s' => s'.run sched

/-- All workers have returned: `for_each` returns. -/
def State.Finished (s : State K M) : Prop := ∀ t ∈ s.threads, t.ops = []

/-- `*table.entry(k).or_insert(0) += n`, without the lock. -/
def bump (e : K × M) : List (Op K M) := [.load e.1, .store e.1 e.2]

/-- Adding entries while holding one lock for all of them: src/merge.rs:68-73, src/prune.rs:104-112,
src/prune.rs:231-236. -/
def lockedAdds (entries : List (K × M)) : List (Op K M) :=
  .acquire 0 :: (entries.flatMap bump ++ [.release 0])

/-- Adding entries to a `DashMap`, each under the lock of its shard: src/mine.rs:36-38, src/generate.rs:128-130. -/
def shardedAdds (shard : K → Nat) (entries : List (K × M)) : List (Op K M) :=
  entries.flatMap fun e => .acquire (shard e.1) :: (bump e ++ [.release (shard e.1)])

/-- `slice.par_chunks(n)`: consecutive pieces of `n` elements, the last one possibly shorter.  Rayon panics for
`n = 0`; `par_chunk_size` never returns 0 (C51). -/
def chunks {α : Type} (n : Nat) (l : List α) : List (List α) :=
  if _h : n = 0 ∨ l = [] then [] else l.take n :: chunks n (l.drop n)
  termination_by l.length
  decreasing_by
    simp only [not_or] at _h
    have : 0 < l.length := List.length_pos_iff.2 _h.2
    rw [List.length_drop]; omega

/-- `par_chunk_size`, src/task.rs:134-137; `threads` is `rayon::current_num_threads()`.  The divisions panic if their
divisor is 0. -/
def parChunkSize (threads numSamples f : Nat) : Res Nat :=
  if threads = 0 ∨ f = 0 then .error .panic else .ok (max 1 (numSamples / threads / f))

end Tokengeex.Parallel

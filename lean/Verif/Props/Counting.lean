import Verif.Proofs.Merge
import Verif.Proofs.PruneCount
import Verif.Proofs.Filter
/-
Properties of the parallel counting loops: C47 (mining), C50 (merge and prune), C51 (chunks).
-/
namespace Tokengeex
open Spec Parallel

variable {F : Type} [ScoreOps F]

/-- **C50** (merge) If every sample can be encoded, `idss` being the encodings, then for every chunk size, every order in
which the workers iterate over their local tables, and every interleaving of their steps, the shared table holds for
every pair exactly the number of its occurrences as neighbours in the encodings. -/
theorem C50_pairs (m : Model F) (rnd : Nat → F) (samples : List Str) (idss : List (List Nat))
    (hids : samples.mapM (fun s => m.encode s ScoreOps.zero rnd) = .ok idss)
    (val : Nat × Nat → Nat) (h : ParCount (Merger.Worker m rnd) samples val) (p : Nat × Nat) :
    val p = pairCount idss p := by
  rw [parCount_sum (fun _ => 0) (Merger.contribution m rnd) (fun c p hp => Merger.worker_safe hp) h p]
  clear h
  unfold pairCount
  congr 1
  induction samples generalizing idss with
  | nil => simp [pure, Except.pure] at hids; subst hids; rfl
  | cons s samples ih =>
    rw [List.mapM_cons] at hids
    cases he : m.encode s ScoreOps.zero rnd with
    | error e => rw [he] at hids; simp at hids
    | ok ids =>
      rw [he] at hids
      simp only [res_bind_ok] at hids
      cases hr : samples.mapM (fun s => m.encode s ScoreOps.zero rnd) with
      | error e => rw [hr] at hids; simp at hids
      | ok idss' =>
        rw [hr] at hids
        simp only [res_bind_ok, res_pure, Except.ok.injEq] at hids
        subst hids
        rw [List.map_cons, List.map_cons, ih _ hr, Merger.contribution, he]

/-- **C50** (prune) If every sample can be encoded, then for every chunk size and every interleaving the shared vector
holds for every token exactly the number of its occurrences in the encodings. -/
theorem C50_tokens (m : Model F) (rnd : Nat → F) (samples : List Str) (idss : List (List Nat))
    (hids : samples.mapM (fun s => m.encode s ScoreOps.zero rnd) = .ok idss)
    (val : Nat → Nat) (h : ParCount (Pruner.CountWorker m rnd) samples val) (i : Nat) (hi : i < m.vocabSize) :
    val i = tokenCount idss i := by
  rw [parCount_sum (fun _ => 0) (fun k s => if k < m.vocabSize then Pruner.contribution m rnd k s else 0)
    (fun c p hp => Pruner.worker_safe hp) h i]
  clear h
  unfold tokenCount
  congr 1
  induction samples generalizing idss with
  | nil => simp [pure, Except.pure] at hids; subst hids; rfl
  | cons s samples ih =>
    rw [List.mapM_cons] at hids
    cases he : m.encode s ScoreOps.zero rnd with
    | error e => rw [he] at hids; simp at hids
    | ok ids =>
      rw [he] at hids
      simp only [res_bind_ok] at hids
      cases hr : samples.mapM (fun s => m.encode s ScoreOps.zero rnd) with
      | error e => rw [hr] at hids; simp at hids
      | ok idss' =>
        rw [hr] at hids
        simp only [res_bind_ok, res_pure, Except.ok.injEq] at hids
        subst hids
        rw [List.map_cons, List.map_cons, ih _ hr, if_pos hi, Pruner.contribution, he]

/-- **C50** (no deadlock) Workers that add up counts under the lock of a table, or under the locks of the shards of a
`DashMap`, never block each other for good: whatever has happened so far, either all have returned or one of them can
move, and the number of steps taken never exceeds the total number of operations. -/
theorem C50_progress {K : Type} [DecidableEq K] (shard : K → Nat) (entries : List (List (K × Nat))) (init : K → Nat)
    (sched : List Nat) (s : State K Nat) (programs : List (List (Op K Nat)))
    (hp : programs = entries.map lockedAdds ∨ programs = entries.map (shardedAdds shard))
    (h : (State.init init programs).run sched = some s) :
    (s.Finished ∨ ∃ i, (s.step i).isSome = true) ∧ sched.length ≤ (programs.map List.length).sum := by
  constructor
  · rcases hp with rfl | rfl
    · refine run_progress (fun _ => 0) init _ ?_ sched s h
      intro p hm
      obtain ⟨e, _, rfl⟩ := List.mem_map.1 hm
      exact safe_locked e
    · refine run_progress shard init _ ?_ sched s h
      intro p hm
      obtain ⟨e, _, rfl⟩ := List.mem_map.1 hm
      exact safe_sharded shard e
  · have := run_length sched h
    simp only [State.init, List.map_map, Function.comp_def] at this
    have e : (programs.map fun x => x.length) = programs.map List.length := rfl
    rw [e] at this
    omega

/-- **C51** For every positive number of threads and positive factor the chunk size is at least 1, and cutting the
samples into chunks of any positive size loses, duplicates and reorders nothing; no chunk is empty or too long. -/
theorem C51_chunks {α : Type} (threads factor : Nat) (ht : 0 < threads) (hf : 0 < factor) (samples : List α) :
    ∃ n, parChunkSize threads samples.length factor = .ok n ∧ 1 ≤ n ∧ (chunks n samples).flatten = samples ∧
      (∀ c ∈ chunks n samples, c ≠ [] ∧ c.length ≤ n) ∧ (n = 1 ∨ n * threads * factor ≤ samples.length) := by
  refine ⟨max 1 (samples.length / threads / factor), ?_, ?_, ?_, ?_, ?_⟩
  · unfold parChunkSize
    rw [if_neg (by omega)]
  · omega
  · exact chunks_flatten _ (by omega) samples
  · exact chunks_ne _ (by omega) samples
  · by_cases h : samples.length / threads / factor ≤ 1
    · left; omega
    · right
      rw [Nat.max_eq_right (by omega)]
      have h1 : samples.length / threads / factor * factor ≤ samples.length / threads := Nat.div_mul_le_self _ _
      have h2 : samples.length / threads * threads ≤ samples.length := Nat.div_mul_le_self _ _
      calc samples.length / threads / factor * threads * factor
          = (samples.length / threads / factor * factor) * threads := by
            rw [Nat.mul_assoc, Nat.mul_comm threads factor, ← Nat.mul_assoc]
        _ ≤ samples.length / threads * threads := Nat.mul_le_mul_right _ h1
        _ ≤ samples.length := h2

/-- **C47** Mining always returns, and whatever the chunks, the interleaving, the iteration orders and the outcome of the
sort, the result lists distinct texts with the exact number of matches over all samples, all of them positive, in
non-increasing order; every text that is left out has no more matches than any listed one, and texts are left out only
if `num_idioms` are listed. -/
theorem C47_mine (find : Str → List Str) (shard : Str → Nat) (sorter : Sorter (Str × Nat)) (hs : SortLaws sorter)
    (numIdioms : Nat) (samples : List Str) :
    (∃ result, Miner.Mine find shard sorter numIdioms samples result) ∧
    ∀ result, Miner.Mine find shard sorter numIdioms samples result →
      (result.map (·.1)).Nodup ∧ result.length ≤ numIdioms ∧
      (∀ t n, (t, n) ∈ result → n = matchCount find samples t ∧ 0 < n) ∧
      result.Pairwise (fun a b => b.2 ≤ a.2) ∧
      ∀ t, 0 < matchCount find samples t → t ∉ result.map (·.1) →
        result.length = numIdioms ∧ ∀ e ∈ result, matchCount find samples t ≤ e.2 := by
  have hval : ∀ val, ParCount (Miner.Worker find shard) samples val → val = matchCount find samples := by
    intro val h
    funext t
    exact parCount_sum shard (fun k s => (find s).count k) (fun c p hp => Miner.worker_safe hp) h t
  constructor
  · obtain ⟨val, hv⟩ := parCount_exists (Worker := Miner.Worker find shard) shard 1 (by omega) samples (by
      intro chunk _
      exact ⟨_, ⟨_, .refl _, rfl⟩, safe_sharded shard _⟩)
    obtain ⟨entries, he⟩ := iteration_exists val (samples.flatMap find) (by
      intro k hk
      rw [hval val hv] at hk
      unfold matchCount at hk
      by_contra hmem
      apply hk
      refine List.sum_eq_zero ?_
      intro n hn
      obtain ⟨s, hs, rfl⟩ := List.mem_map.1 hn
      rw [List.count_eq_zero]
      intro hin
      exact hmem (List.mem_flatMap.2 ⟨s, hs, hin⟩))
    exact ⟨_, val, entries, hv, he, rfl⟩
  · rintro result ⟨val, entries, hv, ⟨hnd, hmem⟩, rfl⟩
    rw [hval val hv] at hmem
    obtain ⟨hperm, hsort⟩ := sort_counts hs entries
    generalize hL : sorter.run (fun a b => compare b.2 a.2) entries = L at *
    have hndL : (L.map (·.1)).Nodup := (hperm.map _).nodup_iff.2 hnd
    refine ⟨?_, by rw [List.length_take]; omega, ?_, hsort.sublist (List.take_sublist _ _), ?_⟩
    · rw [List.map_take]
      exact hndL.sublist (List.take_sublist _ _)
    · intro t n hin
      have := (hmem t n).1 (hperm.subset ((List.take_sublist _ _).subset hin))
      exact ⟨this.1.symm, by omega⟩
    · intro t ht hnot
      have h1 : (t, matchCount find samples t) ∈ L := hperm.symm.subset ((hmem _ _).2 ⟨rfl, by omega⟩)
      have h2 : (t, matchCount find samples t) ∈ L.drop numIdioms := by
        rw [← List.take_append_drop numIdioms L, List.mem_append] at h1
        rcases h1 with h1 | h1
        · exact absurd (List.mem_map.2 ⟨_, h1, rfl⟩) hnot
        · exact h1
      constructor
      · have := List.length_pos_of_mem h2
        rw [List.length_drop] at this
        rw [List.length_take]; omega
      · intro e he
        rw [← List.take_append_drop numIdioms L, List.pairwise_append] at hsort
        exact hsort.2.2 e he _ h2

/-! ### Non-vacuity -/

/-- A lost update: without the lock, this schedule of two workers adding 1 to the same entry ends with 1. -/
example : ((State.init (fun _ : Nat => 0) [bump (7, 1), bump (7, 1)]).run [0, 1, 0, 1]).map (fun s => s.val 7) = some 1 := by
  decide
/-- With the lock the second worker has to wait, and the total is 2. -/
example : ((State.init (fun _ : Nat => 0) [lockedAdds [(7, 1)], lockedAdds [(7, 1)]]).run
    [0, 0, 1]).isSome = false := by decide
example : ((State.init (fun _ : Nat => 0) [lockedAdds [(7, 1)], lockedAdds [(7, 1)]]).run
    [0, 0, 0, 0, 1, 1, 1, 1]).map (fun s => s.val 7) = some 2 := by decide

private def exModel : Model Int := Model.from_ [⟨[97], -1, true⟩, ⟨[98], -1, true⟩]

/-- Two samples, one per chunk: the pair (a, b) occurs three times. -/
example : ∃ val, ParCount (Merger.Worker exModel (fun _ => 0)) [['a', 'b', 'a', 'b'], ['a', 'b']] val ∧ val (0, 1) = 3 := by
  obtain ⟨val, hv⟩ := parCount_exists (Worker := Merger.Worker exModel (fun _ => 0)) (fun _ => 0) 1 (by omega)
    [['a', 'b', 'a', 'b'], ['a', 'b']] (by
      intro chunk hc
      have : chunk ∈ [[['a', 'b', 'a', 'b']], [['a', 'b']]] := by
        have e : chunks 1 [['a', 'b', 'a', 'b'], ['a', 'b']] = [[['a', 'b', 'a', 'b']], [['a', 'b']]] := by
          simp [chunks]
        rw [← e]; exact hc
      simp only [List.mem_cons, List.not_mem_nil, or_false] at this
      rcases this with rfl | rfl
      · exact ⟨_, ⟨[((0, 1), 2), ((1, 0), 1)], _, by decide, .refl _, rfl⟩, safe_locked _⟩
      · exact ⟨_, ⟨[((0, 1), 1)], _, by decide, .refl _, rfl⟩, safe_locked _⟩)
  refine ⟨val, hv, ?_⟩
  rw [C50_pairs exModel (fun _ => 0) _ [[0, 1, 0, 1], [0, 1]] (by decide) val hv]
  decide

example : ∃ result, Miner.Mine (fun s => [s]) (fun _ => 0) (insertSorter _) 1 [['a'], ['b'], ['a']] result ∧
    result.length ≤ 1 := by
  obtain ⟨⟨r, hr⟩, h⟩ := C47_mine (fun s => [s]) (fun _ => 0) (insertSorter _) (insertSorter_laws _) 1 [['a'], ['b'], ['a']]
  exact ⟨r, hr, (h r hr).2.1⟩

example : parChunkSize 4 1000 5 = .ok 50 := by decide

end Tokengeex

import Verif.Spec.Overflow
import Verif.Proofs.Merge
import Verif.Proofs.PruneCount
import Verif.Props.Generate
import Verif.Props.Size
import Mathlib.Data.List.GetD
/-
C114: no counter exceeds what the size of the corpus allows, at any moment of any interleaving.
-/
namespace Tokengeex
open Spec Parallel

section
variable {α K : Type} [DecidableEq K]

/-- Every moment is followed by a final state in which no counter is smaller. -/
theorem moment_le {Worker : List α → List (Op K Nat) → Prop} (guard : K → Nat)
    (hW : ∀ chunk p, Worker chunk p → Safe guard none none p) {samples : List α} {s : State K Nat}
    (h : Moment Worker samples s) : ∃ val, ParCount Worker samples val ∧ ∀ k, s.val k ≤ val k := by
  obtain ⟨n, programs, sched, hn, hp, hrun⟩ := h
  have hsafe : ∀ p ∈ programs, Safe guard none none p := by
    intro p hmem
    obtain ⟨i, hi⟩ := List.mem_iff_getElem?.1 hmem
    obtain ⟨hi', e⟩ := List.getElem?_eq_some_iff.1 hi
    have := hp.get (by rw [hp.length_eq]; exact hi') hi'
    rw [List.get_eq_getElem, List.get_eq_getElem, e] at this
    exact hW _ _ this
  obtain ⟨more, s', h1, h2⟩ := run_completes guard (fun _ => 0) programs hsafe _ sched s hrun (Nat.le_refl _)
  have hall : (State.init (fun _ => 0) programs).run (sched ++ more) = some s' := by rw [run_append, hrun]; exact h1
  refine ⟨s'.val, ⟨n, programs, sched ++ more, s', hn, hp, hall, h2, rfl⟩, fun k => ?_⟩
  obtain ⟨held, loaded, inv⟩ := (Inv.init guard (fun _ => 0) programs hsafe).run sched hrun
  rw [run_total guard _ programs hsafe _ _ hall h2 k, ← inv.sum k]
  exact Nat.le_add_right _ _

end

theorem totalBytes_cons (s : Str) (l : List Str) : totalBytes (s :: l) = (enc s).length + totalBytes l := by
  simp [totalBytes]

theorem sum_le_totalBytes {f : Str → Nat} {samples : List Str} (h : ∀ s ∈ samples, f s ≤ (enc s).length) :
    (samples.map f).sum ≤ totalBytes samples := List.sum_le_sum h

section
variable {F : Type} [ScoreOps F]

theorem encode_length_le {vocab : List (ScoredToken F)} {s : Str} {dropout : F} {rnd : Nat → F} {ids : List Nat}
    (h : (Model.from_ vocab).encode s dropout rnd = .ok ids) : ids.length ≤ (enc s).length := by
  have hs := (C01_encode_lossless vocab s dropout rnd ids h).2
  refine length_spells hs ?_
  intro i hi
  obtain ⟨v, h1, h2, _⟩ := C07_encode_canonical vocab s dropout rnd ids h i hi
  exact ⟨v, h1, h2⟩

theorem merge_contribution_le (vocab : List (ScoredToken F)) (rnd : Nat → F) (k : Nat × Nat) (s : Str) :
    Merger.contribution (Model.from_ vocab) rnd k s ≤ (enc s).length := by
  unfold Merger.contribution
  cases he : (Model.from_ vocab).encode s ScoreOps.zero rnd with
  | error _ => simp
  | ok ids =>
    have h2 : (adjacent ids).count k ≤ (adjacent ids).length := List.count_le_length
    have h3 : (adjacent ids).length ≤ ids.length := by simp [adjacent]
    exact le_trans h2 (le_trans h3 (encode_length_le he))

theorem prune_contribution_le (vocab : List (ScoredToken F)) (rnd : Nat → F) (k : Nat) (s : Str) :
    Pruner.contribution (Model.from_ vocab) rnd k s ≤ (enc s).length := by
  unfold Pruner.contribution
  cases he : (Model.from_ vocab).encode s ScoreOps.zero rnd with
  | error _ => simp
  | ok ids => exact le_trans List.count_le_length (encode_length_le he)

theorem entry_le_entrySum {K : Type} [DecidableEq K] {e : K × Nat} {t : List (K × Nat)} (h : e ∈ t) :
    e.2 ≤ entrySum e.1 t := by
  induction t with
  | nil => simp at h
  | cons x t ih =>
    rcases List.mem_cons.1 h with rfl | h
    · simp [entrySum]
    · have := ih h
      simp only [entrySum, List.map_cons, List.sum_cons] at this ⊢
      omega

/-- **C114** (merging) While the pairs are counted, no counter, shared or local, ever exceeds the number of bytes of the
samples it has to count. -/
theorem C114_merge (vocab : List (ScoredToken F)) (rnd : Nat → F) (samples : List Str) :
    (∀ s, Moment (Merger.Worker (Model.from_ vocab) rnd) samples s → ∀ p, s.val p ≤ totalBytes samples) ∧
    ∀ table, Merger.countChunk (Model.from_ vocab) rnd samples [] = .ok table → ∀ e ∈ table, e.2 ≤ totalBytes samples := by
  constructor
  · intro s h p
    obtain ⟨val, h1, h2⟩ := moment_le (fun _ => 0) (fun c p hp => (Merger.worker_safe hp).1) h
    refine le_trans (h2 p) ?_
    rw [parCount_sum (fun _ => 0) (Merger.contribution (Model.from_ vocab) rnd) (fun c p hp => Merger.worker_safe hp) h1 p]
    exact sum_le_totalBytes fun s _ => merge_contribution_le vocab rnd p s
  · intro table h e he
    refine le_trans (entry_le_entrySum he) ?_
    rw [Merger.countChunk_sum _ rnd e.1 samples [] table h]
    simp only [entrySum, List.map_nil, List.sum_nil, Nat.zero_add]
    exact sum_le_totalBytes fun s _ => merge_contribution_le vocab rnd e.1 s

theorem sum_count_lt (n : Nat) (ids : List Nat) :
    ((List.range n).map fun i => ids.count i).sum = ids.countP fun i => decide (i < n) := by
  induction n with
  | zero => simp
  | succ n ih =>
    rw [List.range_succ, List.map_append, List.sum_append, ih]
    simp only [List.map_cons, List.map_nil, List.sum_cons, List.sum_nil, Nat.add_zero]
    clear ih
    induction ids with
    | nil => rfl
    | cons x ids ih =>
      rw [List.countP_cons, List.countP_cons, List.count_cons, ← ih]
      rcases Nat.lt_trichotomy x n with h | h | h
      · have h1 : x < n + 1 := by omega
        have h2 : ¬ x = n := by omega
        simp [h, h1, h2]; omega
      · subst h; simp; omega
      · have h1 : ¬ x < n + 1 := by omega
        have h2 : ¬ x = n := by omega
        have h3 : ¬ x < n := by omega
        simp [h1, h2, h3]

theorem sum_contributions_le (vocab : List (ScoredToken F)) (rnd : Nat → F) (n : Nat) (samples : List Str) :
    ((List.range n).map fun i => (samples.map (Pruner.contribution (Model.from_ vocab) rnd i)).sum).sum ≤
      totalBytes samples := by
  induction samples with
  | nil => simp [totalBytes]
  | cons s samples ih =>
    simp only [List.map_cons, List.sum_cons, List.sum_map_add, totalBytes_cons]
    refine Nat.add_le_add ?_ ih
    cases he : (Model.from_ vocab).encode s ScoreOps.zero rnd with
    | error e => simp [Pruner.contribution, he]
    | ok ids =>
      have : (fun i => Pruner.contribution (Model.from_ vocab) rnd i s) = fun i => ids.count i := by
        funext i; simp [Pruner.contribution, he]
      rw [this, sum_count_lt]
      exact le_trans List.countP_le_length (encode_length_le he)

/-- **C114** (pruning) While the uses of the tokens are counted, no counter, shared or local, ever exceeds the number of
bytes of the samples it has to count, and neither does the sum of all of them. -/
theorem C114_prune (vocab : List (ScoredToken F)) (rnd : Nat → F) (samples : List Str) :
    (∀ s, Moment (Pruner.CountWorker (Model.from_ vocab) rnd) samples s →
      ((List.range vocab.length).map s.val).sum ≤ totalBytes samples ∧ ∀ i, s.val i ≤ totalBytes samples) ∧
    ∀ freqs, Pruner.countChunk (Model.from_ vocab) rnd samples (List.replicate vocab.length 0) = .ok freqs →
      ∀ n ∈ freqs, n ≤ totalBytes samples := by
  have hsize : (Model.from_ vocab).vocabSize = vocab.length := by simp [Model.vocabSize, Model.from_]
  constructor
  · intro s h
    obtain ⟨val, h1, h2⟩ := moment_le (fun _ => 0) (fun c p hp => (Pruner.worker_safe hp).1) h
    have h3 := parCount_sum (fun _ => 0)
      (fun k s => if k < (Model.from_ vocab).vocabSize then Pruner.contribution (Model.from_ vocab) rnd k s else 0)
      (fun c p hp => Pruner.worker_safe hp) h1
    have h4 : ∀ k, val k ≤ (samples.map (Pruner.contribution (Model.from_ vocab) rnd k)).sum := by
      intro k
      rw [h3 k]
      exact List.sum_le_sum fun s _ => by split <;> omega
    constructor
    · exact le_trans (List.sum_le_sum fun i _ => le_trans (h2 i) (h4 i)) (sum_contributions_le vocab rnd vocab.length samples)
    · exact fun i => le_trans (h2 i) (le_trans (h4 i) (sum_le_totalBytes fun s _ => prune_contribution_le vocab rnd i s))
  · intro freqs h n hn
    obtain ⟨h1, h2⟩ := Pruner.countChunk_sum _ rnd samples _ _ h
    obtain ⟨i, hi, rfl⟩ := List.mem_iff_getElem.1 hn
    have h3 := h2 i
    rw [List.getD_eq_getElem _ _ hi] at h3
    rw [h3]
    have : (List.replicate vocab.length 0).getD i 0 = 0 := by
      rw [List.getD_eq_getElem?_getD, List.getElem?_replicate]
      split <;> rfl
    rw [this, Nat.zero_add]
    split
    · exact sum_le_totalBytes fun s _ => prune_contribution_le vocab rnd i s
    · omega

end

/-- **C114** (mining) While the matches are counted, no counter ever exceeds the number of bytes of the samples by more than
the number of samples, if a text has at most one match per byte and one more. -/
theorem C114_mine (find : Str → List Str) (shard : Str → Nat) (hfind : ∀ s, (find s).length ≤ (enc s).length + 1)
    (samples : List Str) :
    (∀ s, Moment (Miner.Worker find shard) samples s → ∀ t, s.val t ≤ totalBytes samples + samples.length) ∧
    ∀ e ∈ Miner.countChunk find samples, e.2 ≤ totalBytes samples + samples.length := by
  have hb : ∀ t (l : List Str), (l.map fun s => (find s).count t).sum ≤ totalBytes l + l.length := by
    intro t l
    induction l with
    | nil => simp
    | cons s l ih =>
      have h1 := hfind s
      have h2 : (find s).count t ≤ (find s).length := List.count_le_length
      rw [List.map_cons, List.sum_cons, totalBytes_cons, List.length_cons]
      omega
  constructor
  · intro s h t
    obtain ⟨val, h1, h2⟩ := moment_le shard (fun c p hp => (Miner.worker_safe hp).1) h
    refine le_trans (h2 t) ?_
    rw [parCount_sum shard (fun k s => (find s).count k) (fun c p hp => Miner.worker_safe hp) h1 t]
    exact hb t samples
  · intro e he
    refine le_trans (entry_le_entrySum he) ?_
    rw [Miner.countChunk_sum]
    exact hb _ _

section
variable {F : Type} [TrainOps F]

/-- Length in bytes of a part. -/
theorem infix_bytes {t s : Str} (h : t <:+: s) : (enc t).length ≤ (enc s).length := by
  obtain ⟨a, b, rfl⟩ := h
  rw [enc_append, enc_append, List.length_append, List.length_append]
  omega

omit [TrainOps F] in
theorem candidate_bytes {g : Generator F} (hsplit : ∀ f, g.split = some f → ∀ s, ∀ part ∈ f s, part <:+: s) {s t : Str}
    (h : Candidate g s t) : (enc t).length ≤ (enc s).length := by
  rcases h with ⟨_, ⟨part, h1, h2⟩, _⟩ | ⟨_, h⟩
  · refine infix_bytes (h2.trans ?_)
    unfold partsOf at h1
    cases hs : g.split with
    | none => rw [hs] at h1; simp only [List.mem_singleton] at h1; subst h1; exact List.infix_rfl
    | some f => rw [hs] at h1; exact hsplit f hs s part h1
  · exact infix_bytes h

theorem taken_bytes {g : Generator F} (hsplit : ∀ f, g.split = some f → ∀ s, ∀ part ∈ f s, part <:+: s) (t : Str)
    {samples : List Str} {sels : List (List Str)} (h : List.Forall₂ (Generator.Taken g) samples sels) :
    (sels.map fun sel => sel.count t).sum * (enc t).length ≤ totalBytes samples ∧
    (sels.map fun sel => sel.count t).sum ≤ samples.length := by
  induction h with
  | nil => simp
  | @cons s sel samples sels h1 _ ih =>
    rw [List.map_cons, List.sum_cons, totalBytes_cons, Nat.add_mul, List.length_cons]
    have hle : sel.count t ≤ 1 := List.nodup_iff_count_le_one.1 h1.nodup t
    have : sel.count t * (enc t).length ≤ (enc s).length := by
      by_cases hm : t ∈ sel
      · calc sel.count t * (enc t).length ≤ 1 * (enc t).length := Nat.mul_le_mul_right _ hle
          _ ≤ _ := by rw [Nat.one_mul]; exact candidate_bytes hsplit (h1.sound t hm)
      · rw [List.count_eq_zero.2 hm]; simp
    omega

/-- **C114** (feeding) While the strings are counted, no counter ever exceeds the number of samples, and a counter times the
length of its string never exceeds the number of bytes of the samples. -/
theorem C114_feed (g : Generator F) (hsplit : ∀ f, g.split = some f → ∀ s, ∀ part ∈ f s, part <:+: s) (shard : Str → Nat)
    (samples : List Str) (s : State Str Nat) (h : Moment (Generator.Worker g shard) samples s) (t : Str) :
    s.val t ≤ samples.length ∧ s.val t * (enc t).length ≤ totalBytes samples := by
  obtain ⟨val, h1, h2⟩ := moment_le shard (fun c p hp => (Generator.worker_facts hp).1) h
  obtain ⟨sels, h3, h4⟩ := parCount_choice shard (Generator.Taken g) (fun k sel => sel.count k)
    (fun c p hp => Generator.worker_facts hp) h1
  have h5 := taken_bytes hsplit t h3
  rw [← h4] at h5
  exact ⟨le_trans (h2 t) h5.2, le_trans (Nat.mul_le_mul_right _ (h2 t)) h5.1⟩

/-- **C114** (generating) However often a generator was fed, no frequency exceeds the number of samples and of given tokens,
and the product of frequency and length that becomes a score never exceeds the number of bytes of the samples and of the
given tokens. -/
theorem C114_generate {max : Nat} {prob : F} {split : Option (Str → List Str)} {allow : Option (Str → Bool)}
    {added suggested fed : List Str} {g : Generator F} (h : Fed max prob split allow added suggested fed g)
    (hsplit : ∀ f, split = some f → ∀ s, ∀ part ∈ f s, part <:+: s) (t : Str) :
    frequency g t ≤ fed.length + added.length + suggested.length ∧
    frequency g t * (enc t).length ≤ totalBytes fed + totalBytes added + totalBytes suggested := by
  obtain ⟨sels, h1, h2, _⟩ := Generator.fed_facts h
  have h3 := taken_bytes (g := Generator.new max prob split allow added suggested) hsplit t h1
  have h4 : sels.countP (fun sel => decide (t ∈ sel)) = (sels.map fun sel => sel.count t).sum := by
    clear h2 h3 h
    rename_i rest
    clear rest
    induction h1 with
    | nil => rfl
    | @cons s sel samples sels h1 _ ih =>
      rw [List.map_cons, List.sum_cons, List.countP_cons, ih]
      have hle : sel.count t ≤ 1 := List.nodup_iff_count_le_one.1 h1.nodup t
      by_cases hm : t ∈ sel
      · have := List.count_pos_iff.2 hm
        simp only [hm, decide_true, if_true]
        omega
      · rw [List.count_eq_zero.2 hm]; simp [hm]
  have h5 : ∀ l : List Str, l.count t * (enc t).length ≤ totalBytes l := by
    intro l
    induction l with
    | nil => simp
    | cons x l ih =>
      rw [totalBytes_cons, List.count_cons, Nat.add_mul]
      by_cases e : x = t
      · subst e; simp; omega
      · simp [e]; omega
  have h6 := h5 added
  have h7 := h5 suggested
  have h8 : added.count t ≤ added.length := List.count_le_length
  have h9 : suggested.count t ≤ suggested.length := List.count_le_length
  rw [h2, h4, Nat.add_mul, Nat.add_mul]
  omega

end

/-! ### Examples -/

private def ovVocab : List (ScoredToken Int) := [⟨[97], -1, true⟩, ⟨[98], -1, true⟩]

private theorem ov_chunks : chunks 1 [['a', 'b'], ['a', 'b']] = [[['a', 'b']], [['a', 'b']]] := by simp [chunks]

/-- In the middle of a run, after the first of two workers has added what it counted. -/
example : ∃ s, Moment (Merger.Worker (Model.from_ ovVocab) (fun _ => 0)) [['a', 'b'], ['a', 'b']] s ∧ s.val (0, 1) = 1 ∧
    ¬ s.Finished := by
  refine ⟨((State.init (fun _ : Nat × Nat => 0) [lockedAdds [((0, 1), 1)], lockedAdds [((0, 1), 1)]]).run
    [0, 0, 0, 0]).get (by decide), ⟨1, _, [0, 0, 0, 0], by omega, ?_, Option.eq_some_of_isSome _⟩, by decide, ?_⟩
  · rw [ov_chunks]
    exact .cons ⟨_, _, by decide, .refl _, rfl⟩ (.cons ⟨_, _, by decide, .refl _, rfl⟩ .nil)
  · intro h
    exact absurd (h ⟨0, lockedAdds [((0, 1), 1)]⟩ (List.mem_of_getElem? (i := 1) rfl)) (by simp [lockedAdds])

/-- The bound on the uses of tokens is reached. -/
example : ∃ s, Moment (Pruner.CountWorker (Model.from_ ovVocab) (fun _ => 0)) [['a', 'b'], ['a', 'b']] s ∧
    ((List.range 2).map s.val).sum = totalBytes [['a', 'b'], ['a', 'b']] := by
  refine ⟨((State.init (fun _ : Nat => 0) [lockedAdds [(0, 1), (1, 1)], lockedAdds [(0, 1), (1, 1)]]).run
    [0, 0, 0, 0, 0, 0, 1, 1, 1, 1, 1, 1]).get (by decide), ⟨1, _, [0, 0, 0, 0, 0, 0, 1, 1, 1, 1, 1, 1], by omega, ?_,
      Option.eq_some_of_isSome _⟩, by decide⟩
  rw [ov_chunks]
  exact .cons ⟨[1, 1], by decide, rfl⟩ (.cons ⟨[1, 1], by decide, rfl⟩ .nil)

/-- So is the bound on the matches. -/
example : ∃ s, Moment (Miner.Worker (fun s => [] :: s.map fun _ => []) (fun _ => 0)) [['a', 'b']] s ∧
    s.val [] = totalBytes [['a', 'b']] + [['a', 'b']].length := by
  refine ⟨((State.init (fun _ : Str => 0) [shardedAdds (fun _ => 0) [([], 3)]]).run
    [0, 0, 0, 0]).get (by decide), ⟨1, _, [0, 0, 0, 0], by omega, ?_, Option.eq_some_of_isSome _⟩, by decide⟩
  have : chunks 1 [['a', 'b']] = [[['a', 'b']]] := by simp [chunks]
  rw [this]
  exact .cons ⟨[([], 3)], by decide, rfl⟩ .nil

/-- A generator that has been fed: the bounds are reached by a string that occurs in every sample. -/
example : ∃ g : Generator ℝ, Fed 4 (RealOps.ofNat 1) (some fun s => [s]) none [['a', 'b']] [] [['a', 'b'], ['a', 'b']] g ∧
    frequency g ['a', 'b'] = 3 ∧ (∃ s, Moment (Generator.Worker (Generator.new 4 (RealOps.ofNat 1 : ℝ) (some fun s => [s]) none
      [['a', 'b']] []) (fun _ => 0)) [['a', 'b'], ['a', 'b']] s) := by
  have hx : ∃ x : ℝ, ScoreOps.le ScoreOps.zero x = true ∧ ScoreOps.lt x (RealOps.ofNat 1) = true :=
    ⟨0, by simp [ScoreOps.le, ScoreOps.zero], by simp [ScoreOps.lt, RealOps.ofNat]⟩
  obtain ⟨g, hg⟩ := (C46_feed (Generator.new 4 (RealOps.ofNat 1 : ℝ) (some fun s => [s]) none [['a', 'b']] []) (fun _ => 0)
    [['a', 'b'], ['a', 'b']]).1 hx
  have hfed := Fed.feed Fed.new hg
  rw [List.nil_append] at hfed
  refine ⟨g, hfed, ?_, ?_⟩
  · obtain ⟨sels, h1, h2, _⟩ := Generator.fed_facts hfed
    rw [h2]
    have hc : Candidate (Generator.new 4 (RealOps.ofNat 1 : ℝ) (some fun s => [s]) none [['a', 'b']] []) ['a', 'b'] ['a', 'b'] :=
      .inl ⟨by simp, ⟨['a', 'b'], by simp [partsOf, Generator.new], List.infix_rfl⟩, by decide, by simp [Generator.new]⟩
    rcases h1 with _ | ⟨a1, _ | ⟨a2, _ | _⟩⟩
    have m1 := a1.complete rfl _ hc
    have m2 := a2.complete rfl _ hc
    simp [m1, m2]
  · obtain ⟨val, entries, ⟨n, programs, sched, s, hn, hp, hrun, _, _⟩, _⟩ := hg
    exact ⟨s, n, programs, sched, hn, hp, hrun⟩

end Tokengeex

import Verif.Model.PruneCount
import Verif.Proofs.Counting
import Verif.Proofs.Monad
/-
Counting token occurrences.
-/
namespace Tokengeex.Pruner
open Parallel
variable {F : Type} [ScoreOps F]

theorem countIds_ok : ∀ (ids : List Nat) (freqs : List Nat), (∀ i ∈ ids, i < freqs.length) →
    ∃ freqs', countIds ids freqs = .ok freqs' ∧ freqs'.length = freqs.length ∧
      ∀ i, freqs'.getD i 0 = freqs.getD i 0 + if i < freqs.length then ids.count i else 0 := by
  intro ids
  induction ids with
  | nil => intro freqs _; exact ⟨freqs, rfl, rfl, by simp⟩
  | cons id ids ih =>
    intro freqs h
    have hid : id < freqs.length := h id (by simp)
    unfold countIds
    rw [idx_of_lt hid]
    simp only [res_bind_ok, setIdx, hid, if_true]
    obtain ⟨freqs', h1, h2, h3⟩ := ih (freqs.set id (freqs[id] + 1)) (by simpa using fun i hi => h i (by simp [hi]))
    refine ⟨freqs', h1, by simpa using h2, fun i => ?_⟩
    rw [h3]
    simp only [List.length_set, List.getD_eq_getElem?_getD, List.getElem?_set, List.count_cons]
    by_cases hi : id = i
    · subst hi
      simp [hid]; omega
    · simp [hi]

/-- The indices out of range of a call to `countIds` make it panic. -/
theorem countIds_length : ∀ (ids : List Nat) (freqs freqs' : List Nat), countIds ids freqs = .ok freqs' →
    ∀ i ∈ ids, i < freqs.length := by
  intro ids
  induction ids with
  | nil => intro _ _ _ i hi; simp at hi
  | cons id ids ih =>
    intro freqs freqs' h i hi
    unfold countIds at h
    by_cases hid : id < freqs.length
    · rw [idx_of_lt hid] at h
      simp only [res_bind_ok, setIdx, hid, if_true] at h
      rcases List.mem_cons.1 hi with rfl | hi
      · exact hid
      · simpa using ih _ _ h i hi
    · unfold idx at h
      rw [List.getElem?_eq_none (by omega)] at h
      simp at h

/-- What one sample contributes to the count of token `i`. -/
def contribution (m : Model F) (rnd : Nat → F) (i : Nat) (sample : Str) : Nat :=
  match m.encode sample ScoreOps.zero rnd with
  | .ok ids => ids.count i
  | .error _ => 0

theorem countChunk_sum (m : Model F) (rnd : Nat → F) : ∀ (chunk : List Str) (t t' : List Nat),
    countChunk m rnd chunk t = .ok t' → t'.length = t.length ∧
    ∀ i, t'.getD i 0 = t.getD i 0 + if i < t.length then (chunk.map (contribution m rnd i)).sum else 0 := by
  intro chunk
  induction chunk with
  | nil => intro t t' h; simp only [countChunk, Except.ok.injEq] at h; subst h; simp
  | cons sample rest ih =>
    intro t t' h
    unfold countChunk at h
    cases he : m.encode sample ScoreOps.zero rnd with
    | error e => rw [he] at h; cases e <;> simp at h
    | ok ids =>
      rw [he] at h
      simp only at h
      cases hc : countIds ids t with
      | error e => rw [hc] at h; simp at h
      | ok t1 =>
        rw [hc] at h
        simp only [res_bind_ok] at h
        obtain ⟨t1', h1, h2, h3⟩ := countIds_ok ids t (countIds_length ids t t1 hc)
        rw [hc] at h1
        simp only [Except.ok.injEq] at h1
        subst h1
        obtain ⟨h4, h5⟩ := ih _ _ h
        refine ⟨by omega, fun i => ?_⟩
        rw [h5, h3, List.map_cons, List.sum_cons, contribution, he]
        simp only
        by_cases hi : i < t.length
        · rw [if_pos hi, if_pos (by omega), if_pos hi]; omega
        · rw [if_neg hi, if_neg (by omega), if_neg hi]

theorem entrySum_zipIdx (k : Nat) : ∀ (l : List Nat) (n : Nat),
    entrySum k ((l.zipIdx n).map fun p => (p.2, p.1)) = if n ≤ k then l.getD (k - n) 0 else 0 := by
  intro l
  induction l with
  | nil => intro n; simp [entrySum]
  | cons a l ih =>
    intro n
    rw [List.zipIdx_cons, List.map_cons]
    have := ih (n + 1)
    unfold entrySum at this ⊢
    rw [List.map_cons, List.sum_cons, this]
    by_cases h1 : n = k
    · subst h1; simp; omega
    · by_cases h2 : n ≤ k
      · rw [if_pos h2, if_pos (by omega : n + 1 ≤ k)]
        have : k - n = (k - (n + 1)) + 1 := by omega
        rw [this]
        simp [h1]
      · simp [h1, h2, show ¬ n + 1 ≤ k by omega]

theorem worker_safe {m : Model F} {rnd : Nat → F} {chunk : List Str} {p : List (Op Nat Nat)}
    (h : CountWorker m rnd chunk p) : Safe (fun _ => 0) none none p ∧
      ∀ k, pending k p = (chunk.map (fun s => if k < m.vocabSize then contribution m rnd k s else 0)).sum := by
  obtain ⟨freqs, h1, rfl⟩ := h
  refine ⟨safe_locked _, fun k => ?_⟩
  obtain ⟨h2, h3⟩ := countChunk_sum m rnd chunk _ _ h1
  rw [pending_locked, entrySum_zipIdx]
  simp only [Nat.zero_le, if_true, Nat.sub_zero]
  rw [h3]
  by_cases hk : k < m.vocabSize
  · simp [hk]
  · simp [hk]

end Tokengeex.Pruner

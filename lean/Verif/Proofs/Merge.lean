import Verif.Model.Merge
import Verif.Model.Mine
import Verif.Spec.Counting
import Verif.Proofs.Counting
import Verif.Proofs.Monad
/-
Counting pairs of neighbours and matches.
-/
namespace Tokengeex
open Parallel Spec

theorem adjacent_cons {α : Type} (a b : α) (l : List α) : adjacent (a :: b :: l) = (a, b) :: adjacent (b :: l) := rfl

theorem mapM_ok_map {α β : Type} (f : α → Res β) (g : α → β) (l : List α) (h : ∀ a ∈ l, f a = .ok (g a)) :
    l.mapM f = .ok (l.map g) := by
  induction l with
  | nil => rfl
  | cons a l ih =>
    rw [List.mapM_cons, h a (by simp), ih (fun x hx => h x (by simp [hx]))]
    rfl

theorem adjacent_getElem? {α : Type} (l : List α) (i : Nat) (a b : α) :
    (adjacent l)[i]? = some (a, b) ↔ l[i]? = some a ∧ l[i + 1]? = some b := by
  unfold adjacent
  rw [List.getElem?_zip_eq_some]
  simp

theorem adjacent_length {α : Type} (l : List α) : (adjacent l).length = l.length - 1 := by
  unfold adjacent
  rw [List.length_zip, List.length_tail]; omega

/-- The loop over positions visits the pairs of neighbours. -/
theorem pairsOf_ok (ids : List Nat) : Merger.pairsOf ids = .ok (adjacent ids) := by
  unfold Merger.pairsOf
  have key : ∀ i (h : i ∈ List.range' 1 (ids.length - 1)), i - 1 < ids.length ∧ i < ids.length := by
    intro i h
    rw [List.mem_range'_1] at h; omega
  by_cases hnil : ids = []
  · subst hnil; rfl
  have hne : 0 < ids.length := List.length_pos_iff.2 hnil
  rw [mapM_ok_map _ (fun i => (ids.getD (i - 1) (ids.head hnil), ids.getD i (ids.head hnil)))]
  · congr 1
    refine List.ext_getElem? fun i => ?_
    rw [List.getElem?_map]
    by_cases hi : i < ids.length - 1
    · have e1 : ids[i]? = some ids[i] := List.getElem?_eq_getElem (by omega)
      have e2 : ids[i + 1]? = some ids[i + 1] := List.getElem?_eq_getElem (by omega)
      rw [List.getElem?_range' hi, (adjacent_getElem? ids i _ _).2 ⟨e1, e2⟩]
      simp [show 1 + i = i + 1 by omega, e1, e2]
    · rw [List.getElem?_eq_none (by rw [List.length_range']; omega),
        List.getElem?_eq_none (by rw [adjacent_length]; omega)]
      rfl
  · intro i hi
    obtain ⟨h1, h2⟩ := key i hi
    rw [idx_of_lt h1, idx_of_lt h2]
    simp [h1, h2]

namespace Merger
variable {F : Type} [ScoreOps F]

/-- What one sample contributes to the count of `k`. -/
def contribution (m : Model F) (rnd : Nat → F) (k : Nat × Nat) (sample : Str) : Nat :=
  match m.encode sample ScoreOps.zero rnd with
  | .ok ids => (adjacent ids).count k
  | .error _ => 0

theorem countChunk_sum (m : Model F) (rnd : Nat → F) (k : Nat × Nat) : ∀ (chunk : List Str)
    (t t' : FreqTable (Nat × Nat)), countChunk m rnd chunk t = .ok t' →
    entrySum k t' = entrySum k t + (chunk.map (contribution m rnd k)).sum := by
  intro chunk
  induction chunk with
  | nil => intro t t' h; simp only [countChunk, Except.ok.injEq] at h; subst h; simp
  | cons sample rest ih =>
    intro t t' h
    unfold countChunk at h
    cases he : m.encode sample ScoreOps.zero rnd with
    | error e => rw [he] at h; simp at h
    | ok ids =>
      rw [he] at h
      simp only [pairsOf_ok, res_bind_ok] at h
      rw [ih _ _ h, FreqTable.entrySum_foldl, List.map_cons, List.sum_cons, contribution, he]
      simp only
      omega

theorem countChunk_ok (m : Model F) (rnd : Nat → F) : ∀ (chunk : List Str) (t : FreqTable (Nat × Nat)),
    (∃ t', countChunk m rnd chunk t = .ok t') ↔ ∀ s ∈ chunk, ∃ ids, m.encode s ScoreOps.zero rnd = .ok ids := by
  intro chunk
  induction chunk with
  | nil => intro t; simp [countChunk]
  | cons sample rest ih =>
    intro t
    unfold countChunk
    cases he : m.encode sample ScoreOps.zero rnd with
    | error e => simp [he]
    | ok ids =>
      simp only [pairsOf_ok, res_bind_ok, List.mem_cons, forall_eq_or_imp, he, Except.ok.injEq, exists_eq', true_and]
      exact ih _

theorem countChunk_outcomes (m : Model F) (rnd : Nat → F) : ∀ (chunk : List Str) (t : FreqTable (Nat × Nat)),
    (∃ t', countChunk m rnd chunk t = .ok t') ∨ countChunk m rnd chunk t = .error .panic := by
  intro chunk
  induction chunk with
  | nil => intro t; exact .inl ⟨t, rfl⟩
  | cons sample rest ih =>
    intro t
    unfold countChunk
    cases he : m.encode sample ScoreOps.zero rnd with
    | error e => exact .inr rfl
    | ok ids =>
      simp only [pairsOf_ok, res_bind_ok]
      exact ih _

theorem worker_safe {m : Model F} {rnd : Nat → F} {chunk : List Str} {p : List (Op (Nat × Nat) Nat)}
    (h : Worker m rnd chunk p) : Safe (fun _ => 0) none none p ∧
      ∀ k, pending k p = (chunk.map (contribution m rnd k)).sum := by
  obtain ⟨table, entries, h1, h2, rfl⟩ := h
  refine ⟨safe_locked entries, fun k => ?_⟩
  rw [pending_locked, entrySum_perm k h2, countChunk_sum m rnd k chunk [] table h1]
  simp [entrySum]

end Merger

namespace Miner

theorem countChunk_sum (find : Str → List Str) (chunk : List Str) (k : Str) :
    entrySum k (countChunk find chunk) = (chunk.map fun s => (find s).count k).sum := by
  unfold countChunk
  rw [FreqTable.entrySum_foldl, List.count_flatMap]
  simp [entrySum, Function.comp_def]

theorem worker_safe {find : Str → List Str} {shard : Str → Nat} {chunk : List Str} {p : List (Op Str Nat)}
    (h : Worker find shard chunk p) : Safe shard none none p ∧
      ∀ k, pending k p = (chunk.map fun s => (find s).count k).sum := by
  obtain ⟨entries, h1, rfl⟩ := h
  refine ⟨safe_sharded shard entries, fun k => ?_⟩
  rw [pending_sharded, entrySum_perm k h1, countChunk_sum]

end Miner

end Tokengeex

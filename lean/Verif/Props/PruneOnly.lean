import Verif.Props.Prune
/-
C48 without EM iterations: pruning only removes.
-/
namespace Tokengeex
open Spec ScoreOps Relation

section
variable {F : Type} [TrainOps F]

omit [TrainOps F] in
/-- Entries at different positions, and those at the other positions. -/
theorem entriesAt_perm {vocab w : List (ScoredToken F)} {ids : List Nat} (hn : ids.Nodup) (he : EntriesAt vocab ids w) :
    ∃ removed, vocab.Perm (w ++ removed) ∧ ∀ t ∈ removed, ∃ i, vocab[i]? = some t ∧ i ∉ ids := by
  classical
  have hlt : ∀ i ∈ ids, i < vocab.length := fun i hi => entriesAt_lt he hi
  have hp : (List.range vocab.length).Perm (ids ++ (List.range vocab.length).filter (· ∉ ids)) := by
    refine (List.perm_ext_iff_of_nodup List.nodup_range ?_).2 ?_
    · refine List.Nodup.append hn (List.Nodup.filter _ List.nodup_range) ?_
      intro i hi h
      simp [hi] at h
    · intro i
      simp only [List.mem_append, List.mem_filter, List.mem_range, decide_eq_true_eq]
      constructor
      · intro h; by_cases hi : i ∈ ids <;> simp [hi, h]
      · rintro (h | h)
        · exact hlt i h
        · exact h.1
  have hr : (List.range vocab.length).map (fun i => vocab[i]?) = vocab.map some := by
    apply List.ext_getElem? 
    intro i
    by_cases hi : i < vocab.length
    · simp [hi]
    · simp [hi]
  obtain ⟨removed, hrem⟩ : ∃ removed : List (ScoredToken F),
      ((List.range vocab.length).filter (· ∉ ids)).map (fun i => vocab[i]?) = removed.map some := by
    refine ⟨((List.range vocab.length).filter (· ∉ ids)).filterMap (fun i => vocab[i]?), ?_⟩
    have : ∀ l : List Nat, (∀ i ∈ l, i < vocab.length) →
        l.map (fun i => vocab[i]?) = (l.filterMap (fun i => vocab[i]?)).map some := by
      intro l
      induction l with
      | nil => intro _; rfl
      | cons i l ih =>
        intro h
        have hi := h i (by simp)
        rw [List.map_cons, List.filterMap_cons_some (List.getElem?_eq_getElem hi), ih fun j hj => h j (by simp [hj])]
        simp [hi]
    exact this _ fun i hi => by simpa using (List.mem_filter.1 hi).1
  refine ⟨removed, ?_, ?_⟩
  · have h1 := hp.map (fun i => vocab[i]?)
    rw [hr, List.map_append, show ids.map (fun i => vocab[i]?) = w.map some from he, hrem, ← List.map_append] at h1
    exact (List.map_perm_map_iff (Option.some_injective _)).1 h1
  · intro t ht
    have : some t ∈ removed.map some := List.mem_map_of_mem ht
    rw [← hrem] at this
    obtain ⟨i, hi, h⟩ := List.mem_map.1 this
    exact ⟨i, h, by simpa using (List.mem_filter.1 hi).2⟩

/-- **C48** (no EM iterations) With `em_subiters` zero, pruning only removes: whenever it stops or could be stopped between
two passes, the vocabulary is the original one without some unprotected tokens, in some order and with the original scores,
and every text that could be encoded still can. -/
theorem C48_no_em (c : Pruner F) (hem : c.emSubiters = 0) (std : Pruner.Std F) (hstd : StdLaws std) (samples : List Str)
    (vocab : List (ScoredToken F)) (hsize : vocab.length ≤ 4294967294) (m' : Model F)
    (h : ReflTransGen (Pruner.Pass c std samples) (Model.from_ vocab) m') :
    ∃ w removed, m' = Model.from_ w ∧ vocab.Perm (w ++ removed) ∧ (∀ t ∈ removed, t.keep = false) ∧
      ∀ (s : Str) (d : F) (rnd rnd' : Nat → F) (ids : List Nat), le d zero = true →
        (Model.from_ vocab).encode s d rnd = .ok ids → ∃ ids', m'.encode s d rnd' = .ok ids' := by
  induction h with
  | refl =>
    refine ⟨vocab, [], rfl, by simp, by simp, ?_⟩
    intro s d rnd rnd' ids hd he
    exact (C03_encode_complete vocab s d rnd' hd).1.2 ((C03_encode_complete vocab s d rnd hd).1.1 ⟨ids, he⟩)
  | @tail m₁ m₂ _ h2 ih =>
    obtain ⟨w₁, r₁, rfl, hp, hk, henc⟩ := ih
    obtain ⟨_, m, hs, hstep⟩ := h2
    rw [hem] at hs
    cases hs
    have hlen : w₁.length ≤ vocab.length := by rw [hp.length_eq, List.length_append]; omega
    obtain ⟨w, ids, rfl, h3, h4, h5, _⟩ := C48_prune_step c std hstd samples w₁ (by omega) m₂ hstep
    obtain ⟨removed, hp2, hr⟩ := entriesAt_perm h3 h4
    refine ⟨w, removed ++ r₁, rfl, hp.trans ((hp2.append_right r₁).trans (by rw [List.append_assoc])), ?_, ?_⟩
    · intro t ht
      rcases List.mem_append.1 ht with ht | ht
      · obtain ⟨i, hi, hni⟩ := hr t ht
        cases hkeep : t.keep with
        | false => rfl
        | true => exact absurd (h5 i t hi hkeep) hni
      · exact hk t ht
    · intro s d rnd rnd' ids hd he
      obtain ⟨ids', h⟩ := henc s d rnd rnd ids hd he
      exact (C64_prune_encodable c std hstd samples w₁ (by omega) _ hstep).2 s d rnd rnd' ids' hd h

end

attribute [local instance] toyOps in
/-- A run without EM iterations that removes a token, from Props/Prune.lean. -/
example : ReflTransGen (Pruner.Pass { toyPruner with emSubiters := 0 } (listStd Int) toySamples) (Model.from_ pruneVocabulary)
    (Model.from_ [⟨[97, 98], -2, false⟩, ⟨[97], -3, true⟩, ⟨[98], -3, true⟩]) :=
  .single ⟨by decide, _, .zero _, toy_step⟩

end Tokengeex

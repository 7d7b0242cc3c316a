import Verif.Proofs.Prune
/-
Pruning: what is kept and what is removed.
-/
namespace Tokengeex
open Spec ScoreOps RealOps

/-- Sorting by a key, highest first. -/
theorem sort_desc_key {F α : Type} [ScoreOps F] {good : F → Prop} (L : OrderLaws F good) {s : Sorter α} (hs : SortLaws s)
    (key : α → F) {l : List α} (hl : ∀ t ∈ l, good (key t)) :
    ∃ l', sortUnwrap s (fun a b => partialCmp (key b) (key a)) l = .ok l' ∧ l'.Perm l ∧
      l'.Pairwise (fun a b => lt (key a) (key b) = false) := by
  unfold sortUnwrap
  rw [if_pos (allComparable_ok l (fun a ha b hb => (partialCmp_some L (hl b hb) (hl a ha)).1))]
  obtain ⟨h1, h2⟩ := hs (fun a b => (partialCmp (key b) (key a)).getD .eq) l
  refine ⟨_, rfl, h1, ?_⟩
  have h3 := h2 (fun a ha b hb => by
      rw [(partialCmp_some L (hl b hb) (hl a ha)).2, (partialCmp_some L (hl a ha) (hl b hb)).2]
      exact L.total (hl b hb) (hl a ha))
    (fun a ha b hb c hc => by
      rw [(partialCmp_some L (hl b hb) (hl a ha)).2, (partialCmp_some L (hl c hc) (hl b hb)).2,
        (partialCmp_some L (hl c hc) (hl a ha)).2]
      exact fun h h' => L.trans (hl c hc) (hl b hb) (hl a ha) h' h)
  refine List.Pairwise.imp_of_mem ?_ h3
  intro a b ha hb h
  have ha' := hl a (h1.subset ha)
  have hb' := hl b (h1.subset hb)
  rw [(partialCmp_some L hb' ha').2] at h
  rw [L.lt_eq ha' hb', h]; rfl

theorem sortUnwrap_perm {α : Type} {s : Sorter α} (hs : SortLaws s) {cmp : α → α → Option Ordering} {l l' : List α}
    (h : sortUnwrap s cmp l = .ok l') : l'.Perm l := by
  unfold sortUnwrap at h
  by_cases hc : allComparable cmp l = true
  · rw [if_pos hc] at h
    simp only [Except.ok.injEq] at h
    rw [← h]
    exact (hs _ l).1
  · rw [if_neg hc] at h
    simp at h

theorem perm_map_exists {α β : Type} {f : α → β} : ∀ {l' : List β} {l : List α}, l'.Perm (l.map f) →
    ∃ m : List α, m.Perm l ∧ m.map f = l' := by
  intro l'
  induction l' with
  | nil =>
    intro l h
    have := h.nil_eq
    cases l with
    | nil => exact ⟨[], .nil, rfl⟩
    | cons a l => simp at this
  | cons b l' ih =>
    intro l h
    obtain ⟨a, ha, rfl⟩ := List.mem_map.1 (h.subset List.mem_cons_self)
    obtain ⟨s, t, rfl⟩ := List.append_of_mem ha
    have h1 : (s ++ a :: t).Perm (a :: (s ++ t)) := List.perm_middle
    obtain ⟨m, h2, h3⟩ := ih (l := s ++ t) (by
      have := h.trans (h1.map f)
      rw [List.map_cons] at this
      exact this.cons_inv)
    exact ⟨a :: m, (h2.cons a).trans h1.symm, by rw [List.map_cons, h3]⟩

namespace Pruner
variable {F : Type}

/-- Positions of the verdicts `keep`. -/
def keepIds : Nat → List (Verdict F) → List Nat
  | _, [] => []
  | k, .keep :: vs => k :: keepIds (k + 1) vs
  | k, .drop :: vs => keepIds (k + 1) vs
  | k, .candidate _ :: vs => keepIds (k + 1) vs

/-- Positions and losses of the candidates. -/
def candIds : Nat → List (Verdict F) → List (Nat × F)
  | _, [] => []
  | k, .keep :: vs => candIds (k + 1) vs
  | k, .drop :: vs => candIds (k + 1) vs
  | k, .candidate l :: vs => (k, l) :: candIds (k + 1) vs

theorem getElem?_cons_sub {α : Type} {a : α} {l : List α} {i k : Nat} (h : k < i) : (a :: l)[i - k]? = l[i - (k + 1)]? := by
  obtain ⟨j, rfl⟩ : ∃ j, i = k + 1 + j := ⟨i - k - 1, by omega⟩
  have e1 : k + 1 + j - k = j + 1 := by omega
  have e2 : k + 1 + j - (k + 1) = j := by omega
  rw [e1, e2, List.getElem?_cons_succ]

theorem mem_keepIds {vs : List (Verdict F)} {k i : Nat} : i ∈ keepIds k vs ↔ k ≤ i ∧ vs[i - k]? = some .keep := by
  induction vs generalizing k with
  | nil => simp [keepIds]
  | cons v vs ih =>
    by_cases hik : i = k
    · subst hik
      cases v <;> simp [keepIds, ih]
    · by_cases hlt : k < i
      · rw [getElem?_cons_sub hlt]
        cases v <;> simp [keepIds, ih, hik] <;> omega
      · cases v <;> simp [keepIds, ih, hik] <;> omega

theorem mem_candIds {vs : List (Verdict F)} {k i : Nat} {l : F} :
    (i, l) ∈ candIds k vs ↔ k ≤ i ∧ vs[i - k]? = some (.candidate l) := by
  induction vs generalizing k with
  | nil => simp [candIds]
  | cons v vs ih =>
    by_cases hik : i = k
    · subst hik
      cases v <;> simp [candIds, ih, eq_comm]
    · by_cases hlt : k < i
      · rw [getElem?_cons_sub hlt]
        cases v <;> simp [candIds, ih, hik] <;> omega
      · cases v <;> simp [candIds, ih, hik] <;> omega

theorem ids_nodup (vs : List (Verdict F)) (k : Nat) : (keepIds k vs ++ (candIds k vs).map (·.1)).Nodup := by
  have hk : ∀ (vs : List (Verdict F)) k, (keepIds k vs).Nodup := by
    intro vs
    induction vs with
    | nil => intro k; simp [keepIds]
    | cons v vs ih =>
      intro k
      have : k ∉ keepIds (k + 1) vs := by rw [mem_keepIds]; omega
      cases v <;> simp [keepIds, ih, this]
  have hc : ∀ (vs : List (Verdict F)) k, ((candIds k vs).map (·.1)).Nodup := by
    intro vs
    induction vs with
    | nil => intro k; simp [candIds]
    | cons v vs ih =>
      intro k
      have : k ∉ (candIds (k + 1) vs).map (·.1) := by
        intro hin
        obtain ⟨⟨i, l⟩, h1, h2⟩ := List.mem_map.1 hin
        rw [mem_candIds] at h1
        simp only at h2
        omega
      cases v with
      | keep => exact ih _
      | drop => exact ih _
      | candidate l => exact List.nodup_cons.2 ⟨this, ih _⟩
  rw [List.nodup_append]
  refine ⟨hk vs k, hc vs k, ?_⟩
  rintro a ha b hb rfl
  rw [mem_keepIds] at ha
  obtain ⟨⟨i, l⟩, h1, h2⟩ := List.mem_map.1 hb
  rw [mem_candIds] at h1
  simp only at h2
  subst h2
  rw [ha.2] at h1
  simp at h1

/-- The loop over the candidates. -/
theorem takeCandidates_spec {vocab : List (ScoredToken F)} {size : Nat} : ∀ (cands : List (Nat × F))
    (pruned w : List (ScoredToken F)), takeCandidates vocab size cands pruned = .ok w →
    ∃ taken rest ws, cands = taken ++ rest ∧ w = pruned ++ ws ∧ EntriesAt vocab (taken.map (·.1)) ws ∧
      (rest ≠ [] → w.length = size) ∧ (pruned.length ≤ size → w.length ≤ size) ∧
      (size < pruned.length → rest = []) := by
  intro cands
  induction cands with
  | nil =>
    intro pruned w h
    simp only [takeCandidates, Except.ok.injEq] at h
    subst h
    exact ⟨[], [], [], rfl, by simp, rfl, by simp, fun h => h, fun _ => rfl⟩
  | cons c cands ih =>
    intro pruned w h
    rw [takeCandidates] at h
    by_cases hs : pruned.length = size
    · rw [if_pos hs] at h
      simp only [Except.ok.injEq] at h
      subst h
      exact ⟨[], c :: cands, [], rfl, by simp, rfl, fun _ => hs, fun h => h, fun h => by omega⟩
    · rw [if_neg hs] at h
      obtain ⟨t, ht, h⟩ := bind_ok h
      obtain ⟨taken, rest, ws, e1, e2, e3, e4, e5, e6⟩ := ih _ _ h
      refine ⟨c :: taken, rest, t :: ws, by simp [e1], by simp [e2], ?_, e4, ?_, ?_⟩
      · unfold EntriesAt at e3 ⊢
        simp only [List.map_cons, e3, idx_ok ht]
      · intro hle
        exact e5 (by rw [List.length_append]; simp; omega)
      · intro hlt
        exact e6 (by rw [List.length_append]; simp; omega)

variable [TrainOps F]

/-- The loop over the vocabulary. -/
theorem judgeAll_spec {numSamples numAlts : Nat} {freqs : List Nat} : ∀ (suffix : List (ScoredToken F))
    (alts : List (Bool × List Nat)) (k : Nat) (st st' : List (Nat × F) × List (ScoredToken F)),
    suffix.length = alts.length →
    judgeAll numSamples numAlts freqs ((suffix.zipIdx k).zip alts) st = .ok st' →
    ∃ vs kept, vs.length = suffix.length ∧
      (∀ j t a v, suffix[j]? = some t → alts[j]? = some a → vs[j]? = some v →
        judge numSamples numAlts freqs (k + j) t a = .ok v) ∧
      st'.1 = st.1 ++ candIds k vs ∧ st'.2 = st.2 ++ kept ∧
      (keepIds k vs).map (fun i => suffix[i - k]?) = kept.map some := by
  intro suffix
  induction suffix with
  | nil =>
    intro alts k st st' hl h
    simp only [List.zipIdx_nil, List.zip_nil_left, judgeAll, Except.ok.injEq] at h
    subst h
    exact ⟨[], [], rfl, by simp, by simp [candIds], by simp, by simp [keepIds]⟩
  | cons t suffix ih =>
    intro alts k st st' hl h
    cases alts with
    | nil => simp at hl
    | cons a alts =>
      rw [List.zipIdx_cons, List.zip_cons_cons, judgeAll] at h
      obtain ⟨v, hv, h⟩ := bind_ok h
      have hl' : suffix.length = alts.length := by simpa using hl
      have shift : ∀ (vs : List (Verdict F)) (x : Verdict F), (keepIds (k + 1) vs).map (fun i => (t :: suffix)[i - k]?) =
          (keepIds (k + 1) vs).map (fun i => suffix[i - (k + 1)]?) := by
        intro vs x
        refine List.map_congr_left ?_
        intro i hi
        rw [mem_keepIds] at hi
        exact getElem?_cons_sub (by omega)
      have cover : ∀ (vs : List (Verdict F)), (∀ j t a v, suffix[j]? = some t → alts[j]? = some a → vs[j]? = some v →
          judge numSamples numAlts freqs (k + 1 + j) t a = .ok v) →
          ∀ j t' a' v', (t :: suffix)[j]? = some t' → (a :: alts)[j]? = some a' → (v :: vs)[j]? = some v' →
            judge numSamples numAlts freqs (k + j) t' a' = .ok v' := by
        intro vs hvs j t' a' v' h1 h2 h3
        cases j with
        | zero =>
          simp only [List.getElem?_cons_zero, Option.some.injEq] at h1 h2 h3
          subst h1; subst h2; subst h3
          exact hv
        | succ j =>
          simp only [List.getElem?_cons_succ] at h1 h2 h3
          have := hvs j t' a' v' h1 h2 h3
          rwa [show k + 1 + j = k + (j + 1) by omega] at this
      cases v with
      | keep =>
        obtain ⟨vs, kept, e1, e2, e3, e4, e5⟩ := ih alts (k + 1) _ _ hl' h
        refine ⟨.keep :: vs, t :: kept, by simp [e1], cover vs e2, by rw [e3]; rfl, by simp [e4], ?_⟩
        rw [keepIds, List.map_cons, shift vs .keep, e5]
        simp
      | drop =>
        obtain ⟨vs, kept, e1, e2, e3, e4, e5⟩ := ih alts (k + 1) _ _ hl' h
        refine ⟨.drop :: vs, kept, by simp [e1], cover vs e2, by rw [e3]; rfl, e4, ?_⟩
        rw [keepIds, shift vs .keep, e5]
      | candidate loss =>
        obtain ⟨vs, kept, e1, e2, e3, e4, e5⟩ := ih alts (k + 1) _ _ hl' h
        refine ⟨.candidate loss :: vs, kept, by simp [e1], cover vs e2, by rw [e3]; simp [candIds], e4, ?_⟩
        rw [keepIds, shift vs .keep, e5]

/-- Pruning as a whole: positions kept, in terms of the verdicts. -/
theorem pruneVocab_spec {c : Pruner F} {std : Std F} (hstd : StdLaws std) {vocab : List (ScoredToken F)}
    (hsize : vocab.length ≤ 4294967294) {rnd : Nat → F} {numSamples : Nat} {freqs : List Nat} {w : List (ScoredToken F)}
    {fuel₀ : Nat} (h : ∀ fuel ≥ fuel₀, pruneVocab c std (Model.from_ vocab) rnd numSamples freqs fuel = .ok w) :
    ∃ alts fuel₁ vs ids, (∀ fuel ≥ fuel₁,
        segmentTokens std.heap (Model.from_ vocab) rnd fuel vocab (Lattice.new, VecPool.withCapacity 32) = .ok alts) ∧
      List.Forall₂ (fun t a => AltOK vocab t.value a) vocab alts ∧ vs.length = vocab.length ∧
      (∀ i t a v, vocab[i]? = some t → alts[i]? = some a → vs[i]? = some v →
        judge numSamples vocab.length freqs i t a = .ok v) ∧
      ids.Nodup ∧ EntriesAt vocab ids w ∧ (∀ i, vs[i]? = some .keep → i ∈ ids) ∧
      (∀ i ∈ ids, vs[i]? = some .keep ∨ ∃ l, vs[i]? = some (.candidate l)) ∧
      ((keepIds 0 vs).length ≤ max (c.shrink vocab.length) c.vocabSize →
        w.length ≤ max (c.shrink vocab.length) c.vocabSize) ∧
      (max (c.shrink vocab.length) c.vocabSize < (keepIds 0 vs).length →
        ∀ i l, vs[i]? = some (.candidate l) → i ∈ ids) ∧
      (∀ i l, vs[i]? = some (.candidate l) → i ∉ ids → w.length = max (c.shrink vocab.length) c.vocabSize) ∧
      (TrainLaws F → ∀ i l j l', vs[i]? = some (.candidate l) → i ∈ ids → vs[j]? = some (.candidate l') → j ∉ ids →
        lt l l' = false) ∧
      (TrainLaws F → (∀ t ∈ vocab, TrainOps.isNan t.score = false) → ScoreSorted w) := by
  obtain ⟨ok, hheap⟩ := hstd.heap
  obtain ⟨alts, fuel₁, hseg, halts⟩ := segmentTokens_spec hheap hsize rnd vocab (VecPool.withCapacity 32) Lattice.new (.start 32)
  have h' := h (max fuel₀ fuel₁) (by omega)
  rw [pruneVocab, Model.from_vocab, hseg _ (by omega)] at h'
  simp only [res_bind_ok] at h'
  obtain ⟨st, hj, h'⟩ := bind_ok h'
  obtain ⟨cands, hc, h'⟩ := bind_ok h'
  obtain ⟨pruned, ht, h'⟩ := bind_ok h'
  have hlen : vocab.length = alts.length := halts.length_eq
  rw [← hlen] at hj
  have hvs : (Model.from_ vocab).vocabSize = vocab.length := by rw [Model.vocabSize, Model.from_vocab]
  rw [hvs] at ht
  obtain ⟨vs, kept, e1, e2, e3, e4, e5⟩ := judgeAll_spec vocab alts 0 ([], []) st hlen hj
  simp only [List.nil_append] at e3 e4
  simp only [Nat.sub_zero] at e5
  obtain ⟨taken, rest, ws, f1, f2, f3, f4, f5, f6⟩ := takeCandidates_spec cands st.2 pruned ht
  have hp1 := sortUnwrap_perm hstd.candidates hc
  have hp2 := sortUnwrap_perm hstd.vocab h'
  rw [e3] at hp1
  rw [e4] at f2 f5 f6
  -- the positions of `pruned`
  have hat : EntriesAt vocab (keepIds 0 vs ++ taken.map (·.1)) pruned := by
    unfold EntriesAt at f3 ⊢
    rw [List.map_append, f2, List.map_append, f3, e5]
  have hnd : (keepIds 0 vs ++ taken.map (·.1) ++ rest.map (·.1)).Nodup := by
    have := ids_nodup vs 0
    rw [List.append_assoc, ← List.map_append, ← f1]
    exact ((hp1.map (·.1)).append_left _).nodup_iff.2 this
  -- reorder them like `w`
  obtain ⟨ids, hids, hperm⟩ : ∃ ids, EntriesAt vocab ids w ∧ ids.Perm (keepIds 0 vs ++ taken.map (·.1)) := by
    unfold EntriesAt at hat ⊢
    have h1 : (w.map some).Perm ((keepIds 0 vs ++ taken.map (·.1)).map fun i => vocab[i]?) := by
      rw [hat]; exact hp2.map _
    obtain ⟨ids, h2, h3⟩ := perm_map_exists h1
    exact ⟨ids, h3, h2⟩
  have hmem : ∀ i, i ∈ ids ↔ i ∈ keepIds 0 vs ∨ ∃ l, (i, l) ∈ taken := by
    intro i
    rw [hperm.mem_iff, List.mem_append]
    simp
  have hcand : ∀ i l, vs[i]? = some (.candidate l) ↔ (i, l) ∈ taken ∨ (i, l) ∈ rest := by
    intro i l
    have := mem_candIds (vs := vs) (k := 0) (i := i) (l := l)
    simp only [Nat.zero_le, true_and, Nat.sub_zero] at this
    rw [← this, ← hp1.mem_iff, f1, List.mem_append]
  have hkeep : ∀ i, vs[i]? = some .keep ↔ i ∈ keepIds 0 vs := by
    intro i
    have := mem_keepIds (vs := vs) (k := 0) (i := i)
    simpa using this.symm
  have hkl : (keepIds 0 vs).length = kept.length := by
    have := congrArg List.length e5
    simpa using this
  have hw : w.length = pruned.length := hp2.length_eq
  have hnotin : ∀ i l, vs[i]? = some (.candidate l) → i ∉ ids → (i, l) ∈ rest := by
    intro i l h1 h2
    rcases (hcand i l).1 h1 with h3 | h3
    · exact absurd ((hmem i).2 (Or.inr ⟨l, h3⟩)) h2
    · exact h3
  refine ⟨alts, fuel₁, vs, ids, hseg, halts, e1, ?_, ?_, hids, ?_, ?_, ?_, ?_, ?_, ?_, ?_⟩
  · intro i t a v h1 h2 h3
    have := e2 i t a v h1 h2 h3
    rwa [Nat.zero_add] at this
  · exact hperm.nodup_iff.2 (List.nodup_append.1 hnd).1
  · intro i hi
    exact (hmem i).2 (Or.inl ((hkeep i).1 hi))
  · intro i hi
    rcases (hmem i).1 hi with h1 | ⟨l, h1⟩
    · exact Or.inl ((hkeep i).2 h1)
    · exact Or.inr ⟨l, (hcand i l).2 (Or.inl h1)⟩
  · intro hle
    rw [hkl] at hle
    rw [hw]
    exact f5 hle
  · intro hlt i l hi
    rw [hkl] at hlt
    have := f6 hlt
    subst this
    rcases (hcand i l).1 hi with h1 | h1
    · exact (hmem i).2 (Or.inr ⟨l, h1⟩)
    · simp at h1
  · intro i l h1 h2
    have := hnotin i l h1 h2
    rw [hw]
    exact f4 (by rintro rfl; simp at this)
  · intro L i l j l' h1 h2 h3 h4
    have hgood : ∀ x ∈ candIds 0 vs, TrainOps.isNan x.2 = false := by
      rintro ⟨i, l⟩ hx
      rw [mem_candIds] at hx
      simp only [Nat.zero_le, true_and, Nat.sub_zero] at hx
      have hlt := (List.getElem?_eq_some_iff.1 hx).1
      rw [e1] at hlt
      have := e2 i _ _ _ (List.getElem?_eq_getElem hlt) (List.getElem?_eq_getElem (by omega)) hx
      refine L.normal _ ?_
      unfold judge at this
      by_cases hk : vocab[i].keep = true
      · rw [if_pos hk] at this; simp at this
      · rw [if_neg hk] at this
        obtain ⟨f, _, this⟩ := bind_ok this
        by_cases h1 : (decide (f = 0) && !(alts[i]'(by omega)).1) = true
        · rw [if_pos h1] at this; simp at this
        · rw [if_neg h1] at this
          by_cases h2 : (alts[i]'(by omega)).2.isEmpty = true
          · rw [if_pos h2] at this; simp at this
          · rw [if_neg h2] at this
            by_cases h3 : f ≠ 0
            · rw [if_pos h3] at this
              obtain ⟨loss, _, this⟩ := bind_ok this
              by_cases h4 : (!TrainOps.isNormal loss) = true
              · rw [if_pos h4] at this; simp at this
              · rw [if_neg h4] at this
                simp only [res_pure, Except.ok.injEq, Verdict.candidate.injEq] at this
                rw [← this]
                simpa using h4
            · rw [if_neg h3] at this; simp at this
    obtain ⟨l'', g1, _, g3⟩ := sort_desc_key L.order hstd.candidates (fun x : Nat × F => x.2) (l := candIds 0 vs) hgood
    rw [← e3, hc] at g1
    simp only [Except.ok.injEq] at g1
    subst g1
    rw [f1, List.pairwise_append] at g3
    have ht : (i, l) ∈ taken := by
      rcases (hcand i l).1 h1 with h5 | h5
      · exact h5
      · exfalso
        rcases (hmem i).1 h2 with h6 | ⟨l2, h6⟩
        · rw [← hkeep, h1] at h6; simp at h6
        · exact (List.nodup_append.1 hnd).2.2 i (List.mem_append_right _ (List.mem_map.2 ⟨_, h6, rfl⟩)) i
            (List.mem_map.2 ⟨_, h5, rfl⟩) rfl
    exact g3.2.2 _ ht _ (hnotin j l' h3 h4)
  · intro L hgood
    have hg : ∀ t ∈ pruned, TrainOps.isNan t.score = false := by
      intro t ht
      refine hgood t ?_
      have : some t ∈ pruned.map some := List.mem_map_of_mem ht
      rw [← hat] at this
      obtain ⟨i, _, hi⟩ := List.mem_map.1 this
      exact List.mem_of_getElem? hi
    obtain ⟨l'', g1, _, g3⟩ := sort_desc L.order hstd.vocab hg
    rw [h'] at g1
    simp only [Except.ok.injEq] at g1
    subst g1
    exact g3

end Pruner
end Tokengeex

import Verif.Spec.Training
import Verif.Proofs.Monad
import Verif.Proofs.ModelWF
/-
Sorting by score, and the loop of the vocabulary filter.
-/
namespace Tokengeex
open Spec ScoreOps

variable {F : Type} [ScoreOps F]

theorem partialCmp_some {good : F → Prop} (L : OrderLaws F good) {a b : F} (ha : good a) (hb : good b) :
    (partialCmp a b).isSome = true ∧ ((partialCmp a b).getD .eq ≠ .gt ↔ le a b = true) := by
  unfold partialCmp
  rcases L.total ha hb with h | h
  · rw [h]; cases le b a <;> simp
  · rw [h]; cases le a b <;> simp

theorem allComparable_ok {α : Type} {cmp : α → α → Option Ordering} :
    ∀ (l : List α), (∀ a ∈ l, ∀ b ∈ l, (cmp a b).isSome = true) → allComparable cmp l = true := by
  intro l
  induction l with
  | nil => intro _; rfl
  | cons a l ih =>
    intro h
    unfold allComparable
    rw [Bool.and_eq_true]
    refine ⟨?_, ih (fun x hx y hy => h x (by simp [hx]) y (by simp [hy]))⟩
    rw [List.all_eq_true]
    intro b hb
    rw [Bool.and_eq_true]
    exact ⟨h a (by simp) b (by simp [hb]), h b (by simp [hb]) a (by simp)⟩

/-- Sorting by ascending score. -/
theorem sort_asc {good : F → Prop} (L : OrderLaws F good) {s : Sorter (ScoredToken F)} (hs : SortLaws s)
    {l : List (ScoredToken F)} (hl : ∀ t ∈ l, good t.score) :
    ∃ l', sortUnwrap s (fun a b => partialCmp a.score b.score) l = .ok l' ∧ l'.Perm l ∧
      l'.Pairwise (fun a b => lt b.score a.score = false) := by
  unfold sortUnwrap
  rw [if_pos (allComparable_ok l (fun a ha b hb => (partialCmp_some L (hl a ha) (hl b hb)).1))]
  obtain ⟨h1, h2⟩ := hs (fun a b => (partialCmp a.score b.score).getD .eq) l
  refine ⟨_, rfl, h1, ?_⟩
  have h3 := h2 (fun a ha b hb => by
      rw [(partialCmp_some L (hl a ha) (hl b hb)).2, (partialCmp_some L (hl b hb) (hl a ha)).2]
      exact L.total (hl a ha) (hl b hb))
    (fun a ha b hb c hc => by
      rw [(partialCmp_some L (hl a ha) (hl b hb)).2, (partialCmp_some L (hl b hb) (hl c hc)).2,
        (partialCmp_some L (hl a ha) (hl c hc)).2]
      exact L.trans (hl a ha) (hl b hb) (hl c hc))
  refine List.Pairwise.imp_of_mem ?_ h3
  intro a b ha hb hab
  have ga := hl a (h1.subset ha)
  have gb := hl b (h1.subset hb)
  rw [(partialCmp_some L ga gb).2] at hab
  rw [L.lt_eq gb ga, hab]; rfl

/-- Sorting by descending score. -/
theorem sort_desc {good : F → Prop} (L : OrderLaws F good) {s : Sorter (ScoredToken F)} (hs : SortLaws s)
    {l : List (ScoredToken F)} (hl : ∀ t ∈ l, good t.score) :
    ∃ l', sortUnwrap s (fun a b => partialCmp b.score a.score) l = .ok l' ∧ l'.Perm l ∧ ScoreSorted l' := by
  unfold sortUnwrap
  rw [if_pos (allComparable_ok l (fun a ha b hb => (partialCmp_some L (hl b hb) (hl a ha)).1))]
  obtain ⟨h1, h2⟩ := hs (fun a b => (partialCmp b.score a.score).getD .eq) l
  refine ⟨_, rfl, h1, ?_⟩
  have h3 := h2 (fun a ha b hb => by
      rw [(partialCmp_some L (hl b hb) (hl a ha)).2, (partialCmp_some L (hl a ha) (hl b hb)).2]
      exact L.total (hl b hb) (hl a ha))
    (fun a ha b hb c hc => by
      rw [(partialCmp_some L (hl b hb) (hl a ha)).2, (partialCmp_some L (hl c hc) (hl b hb)).2,
        (partialCmp_some L (hl c hc) (hl a ha)).2]
      exact fun h h' => L.trans (hl c hc) (hl b hb) (hl a ha) h' h)
  refine List.Pairwise.imp_of_mem ?_ h3
  intro a b ha hb hab
  have ga := hl a (h1.subset ha)
  have gb := hl b (h1.subset hb)
  rw [(partialCmp_some L gb ga).2] at hab
  rw [L.lt_eq ga gb, hab]; rfl

namespace VocabularyFilter

open Classical in
/-- The loop splits a list (in ascending order) into kept and removed tokens. -/
theorem filterLoop_spec (f : VocabularyFilter F) (ninf : F) (toRemove : Nat) :
    ∀ (l : List (ScoredToken F)) (removed : Nat), removed ≤ toRemove →
      ∃ gone, l.Perm (filterLoop f ninf toRemove removed l ++ gone) ∧ (∀ t ∈ gone, Removable f ninf t) ∧
        gone.length = min (toRemove - removed) (l.countP (fun t => decide (Removable f ninf t))) ∧
        (l.Pairwise (fun a b => lt b.score a.score = false) →
          ∀ r ∈ gone, ∀ t ∈ filterLoop f ninf toRemove removed l, Removable f ninf t → lt t.score r.score = false) := by
  intro l
  induction l with
  | nil => intro removed _; exact ⟨[], by simp [filterLoop], by simp, by simp, by simp⟩
  | cons token rest ih =>
    intro removed hle
    unfold filterLoop
    by_cases hc : (decide (removed ≥ toRemove) || (token.keep && !f.force) || lt (f.minScore.getD ninf) token.score) = true
    · simp only [hc, if_true]
      obtain ⟨gone, h1, h2, h3, h4⟩ := ih removed hle
      by_cases hr : Removable f ninf token
      · have hfull : removed = toRemove := by
          simp only [Bool.or_eq_true, decide_eq_true_eq, Bool.and_eq_true, Bool.not_eq_true'] at hc
          rcases hc with (hc | ⟨hk, hf⟩) | hs
          · omega
          · have := hr.1 hk; rw [hf] at this; simp at this
          · have := hr.2; rw [hs] at this; simp at this
        subst hfull
        have h0 : gone = [] := by
          rw [Nat.sub_self, Nat.zero_min] at h3
          exact List.length_eq_zero_iff.1 h3
        subst h0
        exact ⟨[], by simpa using h1, by simp, by simp, by simp⟩
      · refine ⟨gone, by simpa using h1, h2, ?_, ?_⟩
        · rw [h3, List.countP_cons_of_neg (by simpa using hr)]
        · intro hs r hrg t ht htr
          rcases List.mem_cons.1 ht with rfl | ht
          · exact absurd htr hr
          · exact h4 (List.pairwise_cons.1 hs).2 r hrg t ht htr
    · simp only [hc]
      simp only [Bool.or_eq_true, decide_eq_true_eq, Bool.and_eq_true, Bool.not_eq_true', not_or, not_and] at hc
      obtain ⟨⟨hc1, hc2⟩, hc3⟩ := hc
      have hr : Removable f ninf token := by
        refine ⟨fun hk => ?_, by simpa using hc3⟩
        have := hc2 hk
        simpa using this
      obtain ⟨gone, h1, h2, h3, h4⟩ := ih (removed + 1) (by omega)
      refine ⟨token :: gone, ?_, ?_, ?_, ?_⟩
      · exact (List.Perm.cons token h1).trans List.perm_middle.symm
      · intro t ht
        rcases List.mem_cons.1 ht with rfl | ht
        · exact hr
        · exact h2 t ht
      · rw [List.length_cons, h3, List.countP_cons_of_pos (by simpa using hr)]
        omega
      · intro hs r hrg t ht htr
        rw [List.pairwise_cons] at hs
        rcases List.mem_cons.1 hrg with rfl | hrg
        · exact hs.1 t (h1.symm.subset (List.mem_append_left _ ht))
        · exact h4 hs.2 r hrg t ht htr

end VocabularyFilter

open Classical in
/-- Filtering a model whose scores are comparable (no NaN) never panics.  A vocabulary that is small enough
is returned unchanged.  Otherwise the result is the model of a vocabulary `kept` such that the old vocabulary is `kept`
plus the `removed` tokens, in some order; only removable tokens are removed (not the protected ones unless forced, not
the ones scoring above the threshold); no token is altered; at least `vocab_size` tokens are left, and exactly as many are
removed as allowed; no removable token that is kept scores less than a removed one; and `kept` is sorted by descending
score. -/
theorem filter_spec (good : F → Prop) (laws : OrderLaws F good) (f : VocabularyFilter F) (ninf : F)
    (s : Sorter (ScoredToken F)) (hs : SortLaws s) (vocab : List (ScoredToken F)) (hgood : ∀ t ∈ vocab, good t.score) :
    (vocab.length ≤ f.vocabSize → f.filter ninf s (Model.from_ vocab) = .ok (Model.from_ vocab)) ∧
    (f.vocabSize < vocab.length → ∃ kept removed, f.filter ninf s (Model.from_ vocab) = .ok (Model.from_ kept) ∧
      vocab.Perm (kept ++ removed) ∧ (∀ t ∈ removed, Removable f ninf t) ∧ f.vocabSize ≤ kept.length ∧
      removed.length = min (vocab.length - f.vocabSize) (vocab.countP (fun t => decide (Removable f ninf t))) ∧
      (∀ r ∈ removed, ∀ t ∈ kept, Removable f ninf t → lt t.score r.score = false) ∧ ScoreSorted kept) := by
  constructor
  · intro h
    unfold VocabularyFilter.filter
    rw [if_pos (show (Model.from_ vocab).vocabSize ≤ f.vocabSize from h)]; rfl
  · intro h
    obtain ⟨v1, e1, p1, s1⟩ := sort_asc laws hs hgood
    obtain ⟨gone, g1, g2, g3, g4⟩ := f.filterLoop_spec ninf (vocab.length - f.vocabSize) v1 0 (by omega)
    obtain ⟨v2, e2, p2, s2⟩ := sort_desc laws hs (l := f.filterLoop ninf (vocab.length - f.vocabSize) 0 v1)
      (fun t ht => hgood t (p1.subset (g1.symm.subset (List.mem_append_left _ ht))))
    refine ⟨v2, gone, ?_, ?_, g2, ?_, ?_, ?_, s2⟩
    · unfold VocabularyFilter.filter
      rw [if_neg (show ¬ (Model.from_ vocab).vocabSize ≤ f.vocabSize from by simpa [Model.vocabSize] using h)]
      rw [show (Model.from_ vocab).vocab = vocab from rfl, e1]
      simp only [res_bind_ok]
      rw [show (Model.from_ vocab).vocabSize = vocab.length from rfl, e2]
      rfl
    · exact p1.symm.trans (g1.trans (List.Perm.append_right _ p2.symm))
    · have h1 := p1.length_eq
      have h2 := g1.length_eq
      have h3 := p2.length_eq
      rw [List.length_append] at h2
      omega
    · rw [g3, p1.countP_eq]; simp
    · intro r hr t ht htr
      exact g4 s1 r hr t (p2.subset ht) htr

theorem int_order : OrderLaws Int (fun _ => True) where
  total := by intro a b _ _; simp [ScoreOps.le]; omega
  trans := by intro a b c _ _ _; simp [ScoreOps.le]; omega
  lt_eq := by intro a b _ _; rw [Bool.eq_iff_iff]; simp [ScoreOps.le, ScoreOps.lt]

/-- Insertion sort meets the assumptions on sorting functions. -/
def insertSorter (α : Type) : Sorter α where
  run cmp l := l.foldr (fun a acc =>
    (acc.takeWhile (fun b => cmp a b == .gt)) ++ a :: (acc.dropWhile (fun b => cmp a b == .gt))) []

theorem insertSorter_laws (α : Type) : SortLaws (insertSorter α) := by
  intro cmp l
  have perm : ∀ l : List α, ((insertSorter α).run cmp l).Perm l := by
    intro l
    induction l with
    | nil => exact .refl _
    | cons a l ih =>
      show (List.takeWhile _ ((insertSorter α).run cmp l) ++ a :: List.dropWhile _ ((insertSorter α).run cmp l)).Perm _
      refine List.perm_middle.trans (List.Perm.cons a ?_)
      rw [List.takeWhile_append_dropWhile]; exact ih
  refine ⟨perm l, ?_⟩
  intro tot trans
  induction l with
  | nil => exact List.Pairwise.nil
  | cons a l ih =>
    have ih := ih (fun x hx y hy => tot x (by simp [hx]) y (by simp [hy]))
      (fun x hx y hy z hz => trans x (by simp [hx]) y (by simp [hy]) z (by simp [hz]))
    show (List.takeWhile _ ((insertSorter α).run cmp l) ++ a :: List.dropWhile _ ((insertSorter α).run cmp l)).Pairwise _
    have hmem : ∀ x ∈ (insertSorter α).run cmp l, x ∈ l := fun x hx => (perm l).subset hx
    have htw : ∀ x ∈ List.takeWhile (fun b => cmp a b == .gt) ((insertSorter α).run cmp l), cmp a x = .gt := by
      intro x hx
      have h1 := List.all_takeWhile (p := fun b => cmp a b == .gt) (l := (insertSorter α).run cmp l)
      rw [List.all_eq_true] at h1
      simpa using h1 x hx
    have hsort := ih
    rw [← List.takeWhile_append_dropWhile (p := fun b => cmp a b == .gt) (l := (insertSorter α).run cmp l),
      List.pairwise_append] at hsort
    obtain ⟨s1, s2, s3⟩ := hsort
    have tsub : ∀ x ∈ List.takeWhile (fun b => cmp a b == .gt) ((insertSorter α).run cmp l), x ∈ l :=
      fun x hx => hmem x ((List.takeWhile_sublist _).subset hx)
    have dsub : ∀ x ∈ List.dropWhile (fun b => cmp a b == .gt) ((insertSorter α).run cmp l), x ∈ l :=
      fun x hx => hmem x ((List.dropWhile_sublist _).subset hx)
    have hdw : ∀ x ∈ List.dropWhile (fun b => cmp a b == .gt) ((insertSorter α).run cmp l), cmp a x ≠ .gt := by
      cases hd : List.dropWhile (fun b => cmp a b == .gt) ((insertSorter α).run cmp l) with
      | nil => simp
      | cons y ys =>
        have hy : cmp a y ≠ .gt := by
          have := List.head?_dropWhile_not (fun b => cmp a b == .gt) ((insertSorter α).run cmp l)
          rw [hd] at this
          simpa using this
        intro x hx
        rcases List.mem_cons.1 hx with rfl | hx'
        · exact hy
        · rw [hd, List.pairwise_cons] at s2
          exact trans a (by simp) y (by simp [dsub y (by rw [hd]; simp)]) x (by simp [dsub x (by rw [hd]; simp [hx'])]) hy
            (s2.1 x hx')
    rw [List.pairwise_append, List.pairwise_cons]
    refine ⟨s1, ⟨hdw, s2⟩, ?_⟩
    intro x hx y hy
    have hxa : cmp x a ≠ .gt := by
      rcases tot x (by simp [tsub x hx]) a (by simp) with h | h
      · exact h
      · exact absurd (htw x hx) h
    rcases List.mem_cons.1 hy with rfl | hy
    · exact hxa
    · exact s3 x hx y hy

end Tokengeex

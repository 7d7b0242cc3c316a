import Verif.Proofs.MergeDup
import Verif.Props.NBest
import Verif.Props.Filter
/-
C41, C42, C43, C63: merging frequent pairs.

`listing` stands for the table of pairs as collected by the worker threads under any schedule and with any chunk size, in
any iteration order of the hash map, sorted by any unstable sort (`Spec.Listings`).
-/
namespace Tokengeex
open Spec ScoreOps
variable {F : Type} [ScoreOps F] [Mul F]

/-- **C63** A successful merge is a sequence of rounds.  A round merges distinct pairs of neighbours of the encoded samples,
the most frequent mergeable ones, the most frequent first (`Spec.Round`), and merging stops when enough merges were made or no mergeable pair occurs
(or `step` is 0). -/
theorem C63_rounds (c : Merger F) (rnd : Nat → F) (sorter : Sorter ((Nat × Nat) × Nat)) (hs : SortLaws sorter)
    (samples : List Str) (listing : Nat → Model F → List ((Nat × Nat) × Nat)) (hl : Listings rnd sorter samples listing)
    (vocab : List (ScoredToken F)) (fuel : Nat) (m' : Model F)
    (h : c.merge rnd listing samples fuel (Model.from_ vocab) = .ok m') :
    ∃ w, m' = Model.from_ w ∧ Rounds c rnd samples vocab.length vocab w ∧
      w.length ≤ vocab.length + c.numMerges ∧
      (w.length = vocab.length + c.numMerges ∨ c.step = 0 ∨ NoMergeLeft c rnd samples w) := by
  unfold Merger.merge at h
  have hvs : (Model.from_ vocab).vocabSize = vocab.length := by rw [Model.vocabSize, Model.from_vocab]
  rw [hvs] at h
  exact Merger.mergeLoop_rounds hs hl fuel 0 vocab (.refl _) (Nat.le_refl _) (by omega) m' h

/-- Rounds only append merges. -/
theorem Spec.Rounds.appended {c : Merger F} {rnd : Nat → F} {samples : List Str} {start : Nat}
    {v w : List (ScoredToken F)} (h : Rounds c rnd samples start v w) :
    ∃ added, w = v ++ added ∧ ∀ i t, added[i]? = some t → ∃ p, MergeOf c (v ++ added.take i) p t := by
  induction h with
  | refl => exact ⟨[], by simp, by simp⟩
  | @tail w new _ hr ih =>
    obtain ⟨added, rfl, ha⟩ := ih
    refine ⟨added ++ new, by simp, ?_⟩
    intro i t hi
    by_cases hlt : i < added.length
    · rw [List.getElem?_append_left hlt] at hi
      obtain ⟨p, hp⟩ := ha i t hi
      refine ⟨p, ?_⟩
      rw [List.take_append_of_le_length (by omega)]
      exact hp
    · rw [List.getElem?_append_right (by omega)] at hi
      obtain ⟨idss, pairs, _, h2, _⟩ := hr
      have : ∃ p, MergeOf c (v ++ added) p t := by
        obtain ⟨hlt', he⟩ := List.getElem?_eq_some_iff.1 hi
        have := h2.get (i := i - added.length) (by rw [h2.length_eq]; exact hlt') hlt'
        simp only [List.get_eq_getElem] at this
        rw [he] at this
        exact ⟨_, this⟩
      obtain ⟨p, a, b, h1, h2, h3⟩ := this
      have hpre : (v ++ added) <+: v ++ (added ++ new).take i := by
        rw [List.take_append, List.take_of_length_le (by omega), ← List.append_assoc]
        exact List.prefix_append _ _
      obtain ⟨ext, hext⟩ := hpre
      refine ⟨p, a, b, ?_, ?_, h3⟩
      · rw [← hext, List.getElem?_append_left (List.getElem?_eq_some_iff.1 h1).1]; exact h1
      · rw [← hext, List.getElem?_append_left (List.getElem?_eq_some_iff.1 h2).1]; exact h2

/-- **C41** Merging keeps the vocabulary and its ids, appends at most `num_merges` tokens, and every appended token is the
concatenation of two entries that precede it, is at most `max_token_length` bytes long, matches the pattern, has the scaled
sum of the scores and is not protected. -/
theorem C41_merge (c : Merger F) (rnd : Nat → F) (sorter : Sorter ((Nat × Nat) × Nat)) (hs : SortLaws sorter)
    (samples : List Str) (listing : Nat → Model F → List ((Nat × Nat) × Nat)) (hl : Listings rnd sorter samples listing)
    (vocab : List (ScoredToken F)) (fuel : Nat) (m' : Model F)
    (h : c.merge rnd listing samples fuel (Model.from_ vocab) = .ok m') :
    ∃ added, m' = Model.from_ (vocab ++ added) ∧ added.length ≤ c.numMerges ∧
      ∀ i t, added[i]? = some t → ∃ a ∈ vocab ++ added.take i, ∃ b ∈ vocab ++ added.take i,
        t.value = a.value ++ b.value ∧ t.score = add a.score b.score * c.scaleFactor ∧ t.keep = false ∧
        t.value.length ≤ c.maxTokenLength ∧ c.allow (lossy t.value) = true := by
  obtain ⟨w, rfl, hr, hlen, _⟩ := C63_rounds c rnd sorter hs samples listing hl vocab fuel m' h
  obtain ⟨added, rfl, ha⟩ := hr.appended
  refine ⟨added, rfl, by rw [List.length_append] at hlen; omega, ?_⟩
  intro i t hi
  obtain ⟨p, a, b, h1, h2, h3⟩ := ha i t hi
  exact ⟨a, List.mem_of_getElem? h1, b, List.mem_of_getElem? h2, h3⟩

/-- A run that cannot end: after some rounds no mergeable pair occurs although merges are still to be made, but fewer than
`step`. -/
def Spec.GetsStuck (c : Merger F) (rnd : Nat → F) (samples : List Str) (vocab : List (ScoredToken F)) : Prop :=
  ∃ w, Rounds c rnd samples vocab.length vocab w ∧ NoMergeLeft c rnd samples w ∧
    w.length < vocab.length + c.numMerges ∧ vocab.length + c.numMerges - w.length < c.step

/-- **C42** (partial) If the vocabulary has every byte of the samples, merging panics nowhere, and it returns unless it gets
stuck; with a step of at most 1 it always returns.  Missing: the full claim is false, see `C42_false`. -/
theorem C42_merge_partial (c : Merger F) (rnd : Nat → F) (sorter : Sorter ((Nat × Nat) × Nat)) (hs : SortLaws sorter)
    (samples : List Str) (listing : Nat → Model F → List ((Nat × Nat) × Nat)) (hl : Listings rnd sorter samples listing)
    (vocab : List (ScoredToken F)) (hc : ∀ s ∈ samples, BytesCovered vocab (enc s)) :
    ((∃ fuel₀ m', ∀ fuel ≥ fuel₀, c.merge rnd listing samples fuel (Model.from_ vocab) = .ok m') ∨
      (GetsStuck c rnd samples vocab ∧
        ∀ fuel, c.merge rnd listing samples fuel (Model.from_ vocab) = .error .diverge)) ∧
    (c.step ≤ 1 →
      ∃ fuel₀ m', ∀ fuel ≥ fuel₀, c.merge rnd listing samples fuel (Model.from_ vocab) = .ok m') := by
  have hvs : (Model.from_ vocab).vocabSize = vocab.length := by rw [Model.vocabSize, Model.from_vocab]
  have key : (∃ fuel₀ m', ∀ fuel ≥ fuel₀, c.merge rnd listing samples fuel (Model.from_ vocab) = .ok m') ∨
      (GetsStuck c rnd samples vocab ∧
        ∀ fuel, c.merge rnd listing samples fuel (Model.from_ vocab) = .error .diverge) := by
    unfold Merger.merge
    rw [hvs]
    rcases Merger.mergeLoop_ends (c := c) hs hl (vocab.length + c.numMerges) vocab (by omega) (.refl _) (Nat.le_refl _)
      hc 0 with h | ⟨⟨w, h1, h2, _, h4, h5⟩, h⟩
    · exact Or.inl h
    · exact Or.inr ⟨⟨w, h1, h2, h4, h5⟩, h⟩
  refine ⟨key, fun hstep => ?_⟩
  rcases key with h | ⟨⟨w, _, _, h4, h5⟩, _⟩
  · exact h
  · omega

omit [Mul F] in
/-- The vocabulary `a`, `b`. -/
def mergeVocab : List (ScoredToken Int) := [⟨[97], -1, false⟩, ⟨[98], -1, false⟩]

/-- Merge two pairs, two at a time. -/
def mergeTwo : Merger Int := { allow := fun _ => true, numMerges := 2, step := 2, scaleFactor := 1, maxTokenLength := 8 }

section
set_option linter.unusedSectionVars false

theorem mergeTwo_encoded : EncodedAs (fun _ => 0) [['a', 'b']] mergeVocab [[0, 1]] := by unfold EncodedAs; decide
theorem mergeTwo_encoded' : EncodedAs (fun _ => 0) [['a', 'b']] (mergeVocab ++ [⟨[97, 98], -2, false⟩]) [[2]] := by
  unfold EncodedAs; decide

theorem pairCount_ab {p : Nat × Nat} (h : 0 < pairCount [[0, 1]] p) : p = (0, 1) := by
  obtain ⟨ids, h1, h2⟩ := Merger.pairCount_pos h
  simp only [List.mem_singleton] at h1
  subst h1
  simpa [adjacent] using h2

omit [ScoreOps F] in
/-- If only one pair of neighbours occurs and may be merged, it is merged. -/
theorem round_one [ScoreOps F] {c : Merger F} {rnd : Nat → F} {samples : List Str} {limit : Nat}
    {v added : List (ScoredToken F)} {idss : List (List Nat)} (he : EncodedAs rnd samples v idss) (hl : limit ≠ 0)
    {q : Nat × Nat} (hq : 0 < pairCount idss q) (honly : ∀ p, 0 < pairCount idss p → p = q) {t : ScoredToken F}
    (ht : MergeOf c v q t) (h : Round c rnd samples limit v added) : added = [t] := by
  obtain ⟨idss, pairs, h1, h2, h3, h4, h5, h6, _⟩ := h
  have := Merger.encodedAs_unique he h1
  subst this
  have hin : q ∈ pairs := by
    by_contra hnot
    have h7 := (h6 _ t ht hq hnot).1
    cases pairs with
    | nil => simp at h7; omega
    | cons p ps =>
      have := honly p (h4 p (by simp))
      subst this
      simp at hnot
  have hp : pairs = [q] := by
    cases pairs with
    | nil => simp at hin
    | cons p ps =>
      have hp := honly p (h4 p (by simp))
      cases ps with
      | nil => rw [hp]
      | cons r qs =>
        have hr := honly r (h4 r (by simp))
        subst hp; subst hr
        simp at h3
  subst hp
  cases h2 with
  | @cons _ u _ _ hp hr =>
    cases hr
    obtain ⟨a, b, h1, h2, h3, h4, h5, _⟩ := hp
    obtain ⟨a', b', h1', h2', h3', h4', h5', _⟩ := ht
    rw [h1] at h1'; rw [h2] at h2'
    simp only [Option.some.injEq] at h1' h2'
    subst h1'; subst h2'
    have : u = t := by
      cases u; cases t
      simp only at h3 h4 h5 h3' h4' h5'
      subst h3; subst h4; subst h5; subst h3'; subst h4'; subst h5'
      rfl
    rw [this]

/-- In the round for the sample `"ab"`, cut as `a`, `b`, the pair is merged if it may be. -/
theorem round_ab {c : Merger Int} {rnd : Nat → Int} {samples : List Str} {limit : Nat} {v added : List (ScoredToken Int)}
    (he : EncodedAs rnd samples v [[0, 1]]) (hl : limit ≠ 0) {t : ScoredToken Int} (ht : MergeOf c v (0, 1) t)
    (h : Round c rnd samples limit v added) : added = [t] :=
  round_one he hl (by decide) (fun _ => pairCount_ab) ht h

theorem mergeOf_ab : MergeOf mergeTwo mergeVocab (0, 1) ⟨[97, 98], -2, false⟩ :=
  ⟨⟨[97], -1, false⟩, ⟨[98], -1, false⟩, rfl, rfl, rfl, rfl, rfl, by decide, rfl⟩

theorem noMergeLeft_ab : NoMergeLeft mergeTwo (fun _ => 0) [['a', 'b']] (mergeVocab ++ [⟨[97, 98], -2, false⟩]) := by
  refine ⟨_, mergeTwo_encoded', ?_⟩
  intro p t _
  simp [pairCount, adjacent]

/-- **C42** is false: with the vocabulary `a`, `b` and the sample `"ab"`, asked for two merges in steps of two, merging
never ends, whatever the schedule and the order of the table.  After one merge nothing is left to merge, and the test
`merges == self.step` (src/merge.rs:128) fails since only one merge was allowed in the second round. -/
theorem C42_false (sorter : Sorter ((Nat × Nat) × Nat)) (hs : SortLaws sorter)
    (listing : Nat → Model Int → List ((Nat × Nat) × Nat)) (hl : Listings (fun _ => 0) sorter [['a', 'b']] listing) :
    ∀ fuel, mergeTwo.merge (fun _ => 0) listing [['a', 'b']] fuel (Model.from_ mergeVocab) = .error .diverge := by
  intro fuel
  cases fuel with
  | zero => rfl
  | succ fuel =>
    obtain ⟨added, hr, _, he⟩ := Merger.mergeLoop_succ (c := mergeTwo) hs hl (start := 2) (v := mergeVocab) (by decide)
      ⟨_, mergeTwo_encoded⟩ fuel 0
    have := round_ab mergeTwo_encoded (by decide) mergeOf_ab hr
    subst this
    change Merger.mergeLoop mergeTwo (fun _ => 0) listing [['a', 'b']] 2 (fuel + 1) 0 (Model.from_ mergeVocab) = _
    rw [he, if_neg (by decide)]
    exact Merger.mergeLoop_stuck hs hl (by decide) (by decide) (by decide) noMergeLeft_ab fuel 1

/-- Listings as required above exist for every corpus. -/
example (samples : List Str) : ∃ listing : Nat → Model Int → List ((Nat × Nat) × Nat),
    Listings (fun _ => 0) (insertSorter _) samples listing := Merger.listings_exist _ _ _
example : SortLaws (insertSorter ((Nat × Nat) × Nat)) := insertSorter_laws _

/-- With steps of one, the same merge returns after adding `ab`. -/
example (listing : Nat → Model Int → List ((Nat × Nat) × Nat))
    (hl : Listings (fun _ => 0) (insertSorter _) [['a', 'b']] listing) :
    ∃ fuel₀ m', ∀ fuel ≥ fuel₀, ({ mergeTwo with step := 1 } : Merger Int).merge (fun _ => 0) listing [['a', 'b']] fuel
      (Model.from_ mergeVocab) = .ok m' :=
  (C42_merge_partial _ _ _ (insertSorter_laws _) _ _ hl _ (by
    intro s hs
    simp only [List.mem_singleton] at hs
    subst hs
    unfold BytesCovered; decide)).2 (by decide)

/-- The vocabulary `a`, `b`, `ab` where `ab` is worse than `a`, `b`. -/
def dupVocab : List (ScoredToken Int) := [⟨[97], -1, false⟩, ⟨[98], -1, false⟩, ⟨[97, 98], -10, false⟩]

/-- Merge one pair. -/
def mergeOne : Merger Int := { allow := fun _ => true, numMerges := 1, step := 1, scaleFactor := 1, maxTokenLength := 8 }

/-- **C43** is false: from a vocabulary without duplicates, merging one pair of the sample `"ab"` makes the vocabulary
contain `ab` twice. -/
theorem C43_false (sorter : Sorter ((Nat × Nat) × Nat)) (hs : SortLaws sorter)
    (listing : Nat → Model Int → List ((Nat × Nat) × Nat)) (hl : Listings (fun _ => 0) sorter [['a', 'b']] listing) :
    NoDuplicates dupVocab ∧ ∃ m', (∀ fuel ≥ 2, mergeOne.merge (fun _ => 0) listing [['a', 'b']] fuel
      (Model.from_ dupVocab) = .ok m') ∧ ¬ NoDuplicates m'.vocab := by
  refine ⟨by unfold NoDuplicates; decide, Model.from_ (dupVocab ++ [⟨[97, 98], -2, false⟩]), ?_, ?_⟩
  · intro fuel hf
    obtain ⟨f, rfl⟩ : ∃ f, fuel = f + 2 := ⟨fuel - 2, by omega⟩
    have he0 : EncodedAs (fun _ => 0) [['a', 'b']] dupVocab [[0, 1]] := by unfold EncodedAs; decide
    obtain ⟨added, hr, _, he⟩ := Merger.mergeLoop_succ (c := mergeOne) hs hl (start := 3) (v := dupVocab) (by decide)
      ⟨_, he0⟩ (f + 1) 0
    have hm : MergeOf mergeOne dupVocab (0, 1) ⟨[97, 98], -2, false⟩ :=
      ⟨⟨[97], -1, false⟩, ⟨[98], -1, false⟩, rfl, rfl, rfl, rfl, rfl, by decide, rfl⟩
    have := round_ab he0 (by decide) hm hr
    subst this
    change Merger.mergeLoop mergeOne (fun _ => 0) listing [['a', 'b']] 3 (f + 1 + 1) 0 (Model.from_ dupVocab) = _
    rw [he, if_neg (by decide)]
    exact Merger.mergeLoop_done (by decide) f 1
  · rw [Model.from_vocab]
    unfold NoDuplicates
    decide
end

/-- No way of composing a token out of tokens has a larger score than the token. -/
def Spec.TokensBest (R : ExactArith F) (vocab : List (ScoredToken F)) : Prop :=
  ∀ t ∈ vocab, ∀ ids, Spells vocab ids t.value → R.val (totalScore vocab ids) ≤ R.val t.score

/-- **C43** (partial) Merging keeps a vocabulary free of duplicates, whatever the step, if scores are exact and not scaled and
at first no token is empty or scores less than some way of composing it.  Missing: other scale factors and scores, for which
the claim is false (`C43_false`, `C43_default_false`). -/
theorem C43_merge_partial (R : ExactArith F) (hz : le (zero : F) zero = true) (c : Merger F)
    (hscale : ∀ x, R.val (x * c.scaleFactor) = R.val x) (rnd : Nat → F) (sorter : Sorter ((Nat × Nat) × Nat))
    (hs : SortLaws sorter) (samples : List Str) (listing : Nat → Model F → List ((Nat × Nat) × Nat))
    (hl : Listings rnd sorter samples listing) (vocab : List (ScoredToken F)) (hnd : NoDuplicates vocab)
    (hne : ∀ t ∈ vocab, t.value ≠ []) (hbest : TokensBest R vocab) (fuel : Nat) (m' : Model F)
    (h : c.merge rnd listing samples fuel (Model.from_ vocab) = .ok m') :
    NoDuplicates m'.vocab ∧ (∀ t ∈ m'.vocab, t.value ≠ []) ∧ TokensBest R m'.vocab := by
  obtain ⟨w, rfl, hr, _⟩ := C63_rounds c rnd sorter hs samples listing hl vocab fuel m' h
  have := Merger.Good.rounds R hscale hz ⟨hnd, hne, hbest⟩ hr
  rw [Model.from_vocab]
  exact ⟨this.nodup, this.nonempty, this.best⟩

omit [Mul F] in
/-- Distinct one-byte tokens satisfy the hypotheses. -/
theorem tokensBest_bytes (R : ExactArith F) {vocab : List (ScoredToken F)} (hnd : NoDuplicates vocab)
    (h1 : ∀ t ∈ vocab, t.value.length = 1) : TokensBest R vocab := by
  intro t ht ids hs
  have hlen := h1 t ht
  cases ids with
  | nil => rw [spells_nil] at hs; rw [hs] at hlen; simp at hlen
  | cons i ids =>
    obtain ⟨u, rest, h2, h3, h4⟩ := spells_cons.1 hs
    have hu := h1 u (List.mem_of_getElem? h2)
    have hrest : rest = [] := by
      rw [h4, List.length_append, hu] at hlen
      exact List.eq_nil_of_length_eq_zero (by omega)
    subst hrest
    have hids : ids = [] := by
      cases ids with
      | nil => rfl
      | cons j ids =>
        obtain ⟨w, r, h5, _, h6⟩ := spells_cons.1 h3
        have := h1 w (List.mem_of_getElem? h5)
        have := congrArg List.length h6
        simp at this
        omega
    subst hids
    rw [List.append_nil] at h4
    have hut : u = t := by
      obtain ⟨j, hj⟩ := List.getElem?_of_mem ht
      obtain ⟨hi', e1⟩ := List.getElem?_eq_some_iff.1 h2
      obtain ⟨hj', e2⟩ := List.getElem?_eq_some_iff.1 hj
      have hij : i = j := by
        refine (List.Nodup.getElem_inj_iff hnd (hi := by simpa using hi') (hj := by simpa using hj')).1 ?_
        simp only [List.getElem_map, e1, e2, h4]
      subst hij
      rw [h2] at hj
      simpa using hj
    rw [exact_total]
    simp [scoreOf_some h2, hut]

example : TokensBest intExact mergeVocab := tokensBest_bytes _ (by unfold NoDuplicates; decide) (by decide)
example : NoDuplicates mergeVocab ∧ (∀ t ∈ mergeVocab, t.value ≠ []) ∧
    ∀ x : Int, intExact.val (x * mergeTwo.scaleFactor) = intExact.val x := by
  refine ⟨by unfold NoDuplicates; decide, by decide, ?_⟩
  intro x
  simp [mergeTwo]

end Tokengeex

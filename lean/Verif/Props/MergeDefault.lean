import Verif.Props.Merge
import Verif.Model.Float64Train
/-
C43 fails with the options the command line uses by default, in double arithmetic.
-/
namespace Tokengeex
open Spec ScoreOps

/-- The double `-n`. -/
def F64.minus (n : Nat) : F64 := .num true (n * 2 ^ 1074)

/-- The literal `0.9`. -/
def F64.nineTenths : F64 := F64.round false (9 * 2 ^ 1074) 10

/-- The merger that the command line creates if no option is given (src/cli.rs:720-723), with a pattern that matches
everything. -/
def mergeDefault : Merger F64 :=
  { allow := fun _ => true, numMerges := 1000, step := 50, scaleFactor := F64.nineTenths, maxTokenLength := 24 }

/-- The vocabulary `a`, `b`, `c`, `abc`, the last as good as the first three together. -/
def scaledVocab : List (ScoredToken F64) :=
  [⟨[97], F64.minus 1, false⟩, ⟨[98], F64.minus 1, false⟩, ⟨[99], F64.minus 1, false⟩, ⟨[97, 98, 99], F64.minus 3, false⟩]

/-- What the merge of `a` and `b` is, with score `(-1 + -1) * 0.9`. -/
def scaledAB : ScoredToken F64 := ⟨[97, 98], F64.mul (F64.minus 2) F64.nineTenths, false⟩

/-- What the merge of `ab` and `c` is. -/
def scaledABC : ScoredToken F64 :=
  ⟨[97, 98, 99], F64.mul (F64.add (F64.mul (F64.minus 2) F64.nineTenths) (F64.minus 1)) F64.nineTenths, false⟩

def scaledSamples : List Str := [['a', 'b'], ['a', 'b', 'c']]

theorem scaled_encoded : EncodedAs (fun _ => (zero : F64)) scaledSamples scaledVocab [[0, 1], [3]] := by
  unfold EncodedAs; decide +kernel
theorem scaled_encoded' : EncodedAs (fun _ => (zero : F64)) scaledSamples (scaledVocab ++ [scaledAB]) [[4], [4, 2]] := by
  unfold EncodedAs; decide +kernel
theorem scaled_encoded'' :
    EncodedAs (fun _ => (zero : F64)) scaledSamples (scaledVocab ++ [scaledAB] ++ [scaledABC]) [[4], [5]] := by
  unfold EncodedAs; decide +kernel

/-- At first no token scores less than a way of composing it. -/
theorem scaled_best : ∀ t ∈ scaledVocab, ∀ ids, Spells scaledVocab ids t.value →
    lt t.score (totalScore scaledVocab ids) = false := by
  have head : ∀ {i : Nat} {u : ScoredToken F64}, scaledVocab[i]? = some u →
      (i = 0 ∧ u.value = [97]) ∨ (i = 1 ∧ u.value = [98]) ∨ (i = 2 ∧ u.value = [99]) ∨ (i = 3 ∧ u.value = [97, 98, 99]) := by
    intro i u h
    have hlt := (List.getElem?_eq_some_iff.1 h).1
    have : i = 0 ∨ i = 1 ∨ i = 2 ∨ i = 3 := by
      have : scaledVocab.length = 4 := rfl
      omega
    rcases this with rfl | rfl | rfl | rfl <;>
      (simp only [scaledVocab, List.getElem?_cons_zero, List.getElem?_cons_succ, Option.some.injEq] at h; subst h; simp)
  -- the compositions of what follows
  have hc : ∀ ids, Spells scaledVocab ids [99] → ids = [2] := by
    intro ids h
    cases ids with
    | nil => rw [spells_nil] at h; simp at h
    | cons i ids =>
      obtain ⟨u, rest, h1, h2, h3⟩ := spells_cons.1 h
      rcases head h1 with ⟨rfl, e⟩ | ⟨rfl, e⟩ | ⟨rfl, e⟩ | ⟨rfl, e⟩ <;> rw [e] at h3 <;> simp at h3
      subst h3
      cases ids with
      | nil => rfl
      | cons j ids =>
        obtain ⟨w, r, h4, _, h6⟩ := spells_cons.1 h2
        rcases head h4 with ⟨_, e⟩ | ⟨_, e⟩ | ⟨_, e⟩ | ⟨_, e⟩ <;> rw [e] at h6 <;> simp at h6
  have hbc : ∀ ids, Spells scaledVocab ids [98, 99] → ids = [1, 2] := by
    intro ids h
    cases ids with
    | nil => rw [spells_nil] at h; simp at h
    | cons i ids =>
      obtain ⟨u, rest, h1, h2, h3⟩ := spells_cons.1 h
      rcases head h1 with ⟨rfl, e⟩ | ⟨rfl, e⟩ | ⟨rfl, e⟩ | ⟨rfl, e⟩ <;> rw [e] at h3 <;> simp at h3
      rw [← h3] at h2
      rw [hc ids h2]
  have hnil : ∀ ids, Spells scaledVocab ids [] → ids = [] := by
    intro ids h
    cases ids with
    | nil => rfl
    | cons j ids =>
      obtain ⟨w, r, h4, _, h6⟩ := spells_cons.1 h
      rcases head h4 with ⟨_, e⟩ | ⟨_, e⟩ | ⟨_, e⟩ | ⟨_, e⟩ <;> rw [e] at h6 <;> simp at h6
  intro t ht ids hs
  obtain ⟨k, hk⟩ := List.getElem?_of_mem ht
  cases ids with
  | nil =>
    rw [spells_nil] at hs
    rcases head hk with ⟨_, e⟩ | ⟨_, e⟩ | ⟨_, e⟩ | ⟨_, e⟩ <;> rw [e] at hs <;> simp at hs
  | cons i ids =>
    obtain ⟨u, rest, h1, h2, h3⟩ := spells_cons.1 hs
    have fin : ∀ k ids, (k = 0 ∧ ids = [0] ∨ k = 1 ∧ ids = [1] ∨ k = 2 ∧ ids = [2] ∨ k = 3 ∧ ids = [3] ∨
        k = 3 ∧ ids = [0, 1, 2]) → ∀ t, scaledVocab[k]? = some t → lt t.score (totalScore scaledVocab ids) = false := by
      rintro k ids (⟨rfl, rfl⟩ | ⟨rfl, rfl⟩ | ⟨rfl, rfl⟩ | ⟨rfl, rfl⟩ | ⟨rfl, rfl⟩) t h <;>
        (simp only [scaledVocab, List.getElem?_cons_zero, List.getElem?_cons_succ, Option.some.injEq] at h; subst h
         decide +kernel)
    refine fin k _ ?_ t hk
    rcases head hk with ⟨rfl, e⟩ | ⟨rfl, e⟩ | ⟨rfl, e⟩ | ⟨rfl, e⟩ <;> rw [e] at h3 <;>
      rcases head h1 with ⟨rfl, e'⟩ | ⟨rfl, e'⟩ | ⟨rfl, e'⟩ | ⟨rfl, e'⟩ <;> rw [e'] at h3 <;> simp at h3
    · subst h3; simp [hnil ids h2]
    · subst h3; simp [hnil ids h2]
    · subst h3; simp [hnil ids h2]
    · rw [← h3] at h2; simp [hbc ids h2]
    · subst h3; simp [hnil ids h2]

theorem pairCount_zero {p : Nat × Nat} : pairCount [[4], [5]] p = 0 := by simp [pairCount, adjacent]

/-- **C43** is false with the default options (1000 merges in steps of 50, scores scaled by 0.9): merging returns, for every
schedule and every order of the table, and the vocabulary contains `abc` twice, although at first there were no duplicates
and no token scored less than a way of composing it.  Scaling makes `ab` better than the exact sum, and then `ab`, `c`
better than `abc`. -/
theorem C43_default_false (sorter : Sorter ((Nat × Nat) × Nat)) (hs : SortLaws sorter)
    (listing : Nat → Model F64 → List ((Nat × Nat) × Nat))
    (hl : Listings (fun _ => (zero : F64)) sorter scaledSamples listing) :
    NoDuplicates scaledVocab ∧
    (∀ t ∈ scaledVocab, ∀ ids, Spells scaledVocab ids t.value → lt t.score (totalScore scaledVocab ids) = false) ∧
    ∃ m', (∀ fuel ≥ 3, mergeDefault.merge (fun _ => zero) listing scaledSamples fuel (Model.from_ scaledVocab) = .ok m') ∧
      m'.vocab.map (·.value) = [[97], [98], [99], [97, 98, 99], [97, 98], [97, 98, 99]] ∧ ¬ NoDuplicates m'.vocab := by
  refine ⟨by unfold NoDuplicates; decide, scaled_best, Model.from_ (scaledVocab ++ [scaledAB] ++ [scaledABC]), ?_, ?_, ?_⟩
  · intro fuel hf
    obtain ⟨f, rfl⟩ : ∃ f, fuel = f + 3 := ⟨fuel - 3, by omega⟩
    change Merger.mergeLoop mergeDefault _ listing scaledSamples 4 (f + 1 + 1 + 1) 0 (Model.from_ scaledVocab) = _
    obtain ⟨added, hr, _, he⟩ := Merger.mergeLoop_succ (c := mergeDefault) hs hl (start := 4) (v := scaledVocab) (by decide)
      ⟨_, scaled_encoded⟩ (f + 1 + 1) 0
    have hab : MergeOf mergeDefault scaledVocab (0, 1) scaledAB :=
      ⟨⟨[97], F64.minus 1, false⟩, ⟨[98], F64.minus 1, false⟩, rfl, rfl, rfl, by decide +kernel, rfl, by decide, rfl⟩
    have := round_one scaled_encoded (by decide) (q := (0, 1)) (by decide) (by
      intro p hp
      obtain ⟨ids, h1, h2⟩ := Merger.pairCount_pos hp
      simp only [List.mem_cons, List.not_mem_nil, or_false] at h1
      rcases h1 with rfl | rfl <;> simp [adjacent] at h2
      exact h2) hab hr
    subst this
    rw [he, if_neg (by decide)]
    obtain ⟨added, hr, _, he⟩ := Merger.mergeLoop_succ (c := mergeDefault) hs hl (start := 4)
      (v := scaledVocab ++ [scaledAB]) (by decide) ⟨_, scaled_encoded'⟩ (f + 1) (0 + 1)
    have habc : MergeOf mergeDefault (scaledVocab ++ [scaledAB]) (4, 2) scaledABC :=
      ⟨scaledAB, ⟨[99], F64.minus 1, false⟩, rfl, rfl, rfl, by decide +kernel, rfl, by decide, rfl⟩
    have := round_one scaled_encoded' (by decide) (q := (4, 2)) (by decide) (by
      intro p hp
      obtain ⟨ids, h1, h2⟩ := Merger.pairCount_pos hp
      simp only [List.mem_cons, List.not_mem_nil, or_false] at h1
      rcases h1 with rfl | rfl <;> simp [adjacent] at h2
      exact h2) habc hr
    subst this
    rw [he, if_neg (by decide)]
    obtain ⟨added, hr, _, he⟩ := Merger.mergeLoop_succ (c := mergeDefault) hs hl (start := 4)
      (v := scaledVocab ++ [scaledAB] ++ [scaledABC]) (by decide) ⟨_, scaled_encoded''⟩ f (0 + 1 + 1)
    have : added = [] := by
      obtain ⟨idss, pairs, h1, h2, h3, h4, _⟩ := hr
      have := Merger.encodedAs_unique scaled_encoded'' h1
      subst this
      cases h2 with
      | nil => rfl
      | @cons p _ _ _ _ _ =>
        have := h4 p (by simp)
        rw [pairCount_zero] at this
        omega
    subst this
    rw [he, if_pos (by decide), List.append_nil]
  · rw [Model.from_vocab]; decide
  · rw [Model.from_vocab]
    unfold NoDuplicates
    decide

end Tokengeex

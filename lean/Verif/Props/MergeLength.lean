import Verif.Props.MergeDefault
import Verif.Props.Locality
import Verif.Proofs.Determined2
/-
C112: what merging does to the number of tokens.
-/
namespace Tokengeex
open Spec ScoreOps
variable {F : Type} [ScoreOps F]

/-- Every token of the merged vocabulary is composed of tokens of the old one, with the same score. -/
theorem Merger.expansion [Mul F] (R : ExactArith F) {scale : F} (hscale : ∀ x, R.val (x * scale) = R.val x) (v added : List (ScoredToken F))
    (h : ∀ (i : Nat) t, added[i]? = some t → ∃ a ∈ v ++ added.take i, ∃ b ∈ v ++ added.take i,
      t.value = a.value ++ b.value ∧ t.score = add a.score b.score * scale) :
    ∀ t ∈ v ++ added, ∃ e, e ≠ [] ∧ Spells v e t.value ∧ R.val (totalScore v e) = R.val t.score := by
  have old : ∀ t ∈ v, ∃ e, e ≠ [] ∧ Spells v e t.value ∧ R.val (totalScore v e) = R.val t.score := by
    intro t ht
    obtain ⟨i, hi⟩ := List.getElem?_of_mem ht
    refine ⟨[i], by simp, spells_one hi, ?_⟩
    rw [exact_total]
    simp [scoreOf_some hi]
  have new : ∀ (i : Nat) t, added[i]? = some t → ∃ e, e ≠ [] ∧ Spells v e t.value ∧ R.val (totalScore v e) = R.val t.score := by
    intro i
    induction i using Nat.strongRecOn with
    | _ i ih =>
      intro t ht
      obtain ⟨a, ha, b, hb, hv, hs⟩ := h i t ht
      have part : ∀ u ∈ v ++ added.take i, ∃ e, e ≠ [] ∧ Spells v e u.value ∧ R.val (totalScore v e) = R.val u.score := by
        intro u hu
        rcases List.mem_append.1 hu with hu | hu
        · exact old u hu
        · obtain ⟨j, hj⟩ := List.getElem?_of_mem hu
          rw [List.getElem?_take] at hj
          by_cases hji : j < i
          · rw [if_pos hji] at hj; exact ih j hji u hj
          · rw [if_neg hji] at hj; cases hj
      obtain ⟨e, he, hse, hte⟩ := part a ha
      obtain ⟨f, _, hsf, htf⟩ := part b hb
      refine ⟨e ++ f, by simp [he], by rw [hv]; exact spells_append.2 ⟨_, _, hse, hsf, rfl⟩, ?_⟩
      rw [exact_total] at hte htf ⊢
      rw [List.map_append, List.sum_append, hte, htf, hs, hscale, R.add]
  intro t ht
  rcases List.mem_append.1 ht with ht | ht
  · exact old t ht
  · obtain ⟨i, hi⟩ := List.getElem?_of_mem ht
    exact new i t hi

/-- So every segmentation into new tokens is one into old tokens whose tokens were put together. -/
theorem Merger.expansions (R : ExactArith F) {v w : List (ScoredToken F)}
    (h : ∀ t ∈ w, ∃ e, e ≠ [] ∧ Spells v e t.value ∧ R.val (totalScore v e) = R.val t.score) :
    ∀ (ids : List Nat) (bs : List UInt8), Spells w ids bs →
      ∃ parts : List (List Nat), List.Forall₂ (fun i part => part ≠ [] ∧ ∃ t, w[i]? = some t ∧ Spells v part t.value) ids parts ∧
        Spells v parts.flatten bs ∧ R.val (totalScore v parts.flatten) = R.val (totalScore w ids) := by
  intro ids
  induction ids with
  | nil =>
    intro bs hs
    rw [spells_nil] at hs
    subst hs
    exact ⟨[], .nil, spells_nil.2 rfl, rfl⟩
  | cons i ids ih =>
    intro bs hs
    obtain ⟨t, rest, h1, h2, rfl⟩ := spells_cons.1 hs
    obtain ⟨e, he, hse, hte⟩ := h t (List.mem_of_getElem? h1)
    obtain ⟨parts, hp, hsp, htp⟩ := ih rest h2
    refine ⟨e :: parts, .cons ⟨he, t, h1, hse⟩ hp, spells_append.2 ⟨_, _, hse, hsp, rfl⟩, ?_⟩
    rw [exact_total] at hte htp ⊢
    rw [exact_total] at htp ⊢
    rw [List.flatten_cons, List.map_append, List.sum_append, hte, htp, List.map_cons, List.sum_cons, scoreOf_some h1]

omit [ScoreOps F] in
theorem Merger.parts_length {P : Nat → List Nat → Prop} (hP : ∀ i part, P i part → part ≠ []) {ids : List Nat} {parts : List (List Nat)}
    (h : List.Forall₂ P ids parts) : ids.length ≤ parts.flatten.length := by
  induction h with
  | nil => simp
  | cons hx _ ih =>
    rw [List.flatten_cons, List.length_append, List.length_cons]
    have := List.length_pos_iff.2 (hP _ _ hx)
    omega

/-- **C112** (partial) In exact arithmetic and with scores that are not scaled, merging joins tokens of the encoding of a text, and
so never makes it longer, if the encoding is the only best one (and the vocabulary has no duplicates at first, and no token is empty or
scores less than some way of composing it).  Missing: scaled scores and ties, for which the claim is false, see
`C112_false`. -/
theorem C112_merge_partial [Mul F] (R : ExactArith F) (hz : le (zero : F) zero = true) (c : Merger F)
    (hscale : ∀ x, R.val (x * c.scaleFactor) = R.val x) (rnd : Nat → F) (sorter : Sorter ((Nat × Nat) × Nat))
    (hs : SortLaws sorter) (samples : List Str) (listing : Nat → Model F → List ((Nat × Nat) × Nat))
    (hl : Listings rnd sorter samples listing) (vocab : List (ScoredToken F)) (hnd : NoDuplicates vocab)
    (hne : ∀ t ∈ vocab, t.value ≠ []) (hbest : TokensBest R vocab) (fuel : Nat) (m' : Model F)
    (h : c.merge rnd listing samples fuel (Model.from_ vocab) = .ok m')
    (s : Str) (dropout dropout' : F) (rnd₁ rnd₂ : Nat → F) (hd' : le dropout' zero = true)
    (ids ids' : List Nat) (h₁ : (Model.from_ vocab).encode s dropout rnd₁ = .ok ids) (h₂ : m'.encode s dropout' rnd₂ = .ok ids')
    (hunique : ∀ other, Spells vocab other (enc s) → lt (totalScore vocab other) (totalScore vocab ids) = false → other = ids) :
    ids'.length ≤ ids.length ∧
    ∃ parts : List (List Nat), parts.flatten = ids ∧
      List.Forall₂ (fun i part => part ≠ [] ∧ ∃ t, m'.vocab[i]? = some t ∧ Spells vocab part t.value) ids' parts := by
  obtain ⟨added, rfl, _, hadded⟩ := C41_merge c rnd sorter hs samples listing hl vocab fuel m' h
  have hgood := C43_merge_partial R hz c hscale rnd sorter hs samples listing hl vocab hnd hne hbest fuel _ h
  rw [Model.from_vocab] at hgood ⊢
  have hexp := Merger.expansion R hscale vocab added (fun i t ht => by
    obtain ⟨a, ha, b, hb, h3, h4, _⟩ := hadded i t ht
    exact ⟨a, ha, b, hb, h3, h4⟩)
  obtain ⟨parts, hp, hsp, htp⟩ := Merger.expansions R hexp ids' (enc s) (C01_encode_lossless _ s dropout' rnd₂ ids' h₂).2
  -- the old encoding is a competitor of the new one
  have hold := (C01_encode_lossless vocab s dropout rnd₁ ids h₁).2
  have hold' : Spells (vocab ++ added) ids (enc s) ∧ totalScore (vocab ++ added) ids = totalScore vocab ids := by
    obtain ⟨toks, e1, e2⟩ := hold
    have hlt : ∀ i ∈ ids, i < vocab.length := by
      intro i hi
      have : vocab[i]? ∈ ids.map (fun i => vocab[i]?) := List.mem_map_of_mem hi
      rw [e1] at this
      obtain ⟨t, _, ht⟩ := List.mem_map.1 this
      exact (List.getElem?_eq_some_iff.1 ht.symm).1
    refine ⟨⟨toks, ?_, e2⟩, ?_⟩
    · rw [← e1]
      exact List.map_congr_left fun i hi => List.getElem?_append_left (hlt i hi)
    · unfold totalScore
      congr 1
      refine List.map_congr_left fun i hi => ?_
      unfold scoreOf
      rw [List.getElem?_append_left (hlt i hi)]
  have hopt := C05_encode_optimal_nodup _ _ (exact_laws R) (vocab ++ added) (fun _ _ => trivial) hgood.1 hgood.2.1 s dropout' rnd₂ hd'
    ids' h₂ ids hold'.1
  rw [hold'.2, exact_lt_false, ← htp] at hopt
  have hflat := hunique parts.flatten hsp ((exact_lt_false R _ _).2 hopt)
  refine ⟨?_, parts, hflat, hp⟩
  rw [← hflat]
  exact Merger.parts_length (fun _ _ h => h.1) hp

/-- The hypotheses are met by every vocabulary of one-byte tokens without duplicates: there is only one way to cut a text. -/
example (R : ExactArith F) {vocab : List (ScoredToken F)} (hnd : NoDuplicates vocab) (h1 : ∀ t ∈ vocab, t.value.length = 1) (bs : List UInt8)
    (ids other : List Nat) (h : Spells vocab ids bs) (h' : Spells vocab other bs) : TokensBest R vocab ∧ other = ids := by
  refine ⟨tokensBest_bytes R hnd h1, ?_⟩
  induction ids generalizing other bs with
  | nil =>
    rw [spells_nil] at h
    subst h
    rcases other with _ | ⟨j, other⟩
    · rfl
    · obtain ⟨t, rest, h2, _, h3⟩ := spells_cons.1 h'
      have := h1 t (List.mem_of_getElem? h2)
      have := congrArg List.length h3
      simp at this
      omega
  | cons i ids ih =>
    obtain ⟨t, rest, h2, h3, rfl⟩ := spells_cons.1 h
    have ht := h1 t (List.mem_of_getElem? h2)
    rcases other with _ | ⟨j, other⟩
    · rw [spells_nil] at h'
      have := congrArg List.length h'
      rw [List.length_append, List.length_nil] at this
      omega
    · obtain ⟨u, rest', h4, h5, h6⟩ := spells_cons.1 h'
      have hu := h1 u (List.mem_of_getElem? h4)
      obtain ⟨e1, e2⟩ := List.append_inj h6 (by rw [ht, hu])
      subst e2
      rw [ih rest other h3 h5]
      congr 1
      rcases Nat.lt_trichotomy i j with hij | hij | hij
      · exact absurd e1.symm ((lastIndex_of_nodup hnd h2).2 j u hij h4)
      · exact hij.symm
      · exact absurd e1 ((lastIndex_of_nodup hnd h4).2 i t hij h2)

/-! ### A corpus that gets longer -/

/-- The merger that the command line creates with `--num-merges 1` and no other option, with a pattern that matches everything. -/
def mergeOnce : Merger F64 := { mergeDefault with numMerges := 1 }

def longVocab : List (ScoredToken F64) :=
  [⟨[112], F64.minus 1, true⟩, ⟨[113], F64.minus 1, true⟩, ⟨[97], F64.minus 1, true⟩, ⟨[98], F64.minus 1, true⟩,
   ⟨[112, 113, 97], F64.minus 3, false⟩, ⟨[113, 112, 97], F64.minus 3, false⟩, ⟨[112, 112, 97], F64.minus 3, false⟩,
   ⟨[113, 113, 97], F64.minus 3, false⟩]

def longSamples : List Str :=
  [['a', 'b'], ['a', 'b'], ['p', 'q', 'a', 'b'], ['q', 'p', 'a', 'b'], ['p', 'p', 'a', 'b'], ['q', 'q', 'a', 'b']]

theorem long_encoded : EncodedAs (fun _ => (zero : F64)) longSamples longVocab [[2, 3], [2, 3], [4, 3], [5, 3], [6, 3], [7, 3]] := by
  unfold EncodedAs; decide +kernel
theorem long_encoded' : EncodedAs (fun _ => (zero : F64)) longSamples (longVocab ++ [scaledAB])
    [[8], [8], [0, 1, 8], [1, 0, 8], [0, 0, 8], [1, 1, 8]] := by
  unfold EncodedAs; decide +kernel

/-- **C112** is false, even for the corpus itself: on these samples, with one merge and the other options as they are by default, merging the
most frequent pair, `a` and `b`, turns a corpus of 12 tokens into one of 14, whatever the schedule and the order of the table. `ab` is
so good that `pqa`, `b` becomes `p`, `q`, `ab`. -/
theorem C112_false (sorter : Sorter ((Nat × Nat) × Nat)) (hs : SortLaws sorter)
    (listing : Nat → Model F64 → List ((Nat × Nat) × Nat))
    (hl : Listings (fun _ => (zero : F64)) sorter longSamples listing) :
    ∃ m' idss idss', (∀ fuel ≥ 2, mergeOnce.merge (fun _ => zero) listing longSamples fuel (Model.from_ longVocab) = .ok m') ∧
      EncodedAs (fun _ => zero) longSamples longVocab idss ∧ EncodedAs (fun _ => zero) longSamples m'.vocab idss' ∧
      (idss.map List.length).sum = 12 ∧ (idss'.map List.length).sum = 14 := by
  refine ⟨Model.from_ (longVocab ++ [scaledAB]), _, _, ?_, long_encoded, by rw [Model.from_vocab]; exact long_encoded', by decide, by decide⟩
  intro fuel hf
  obtain ⟨f, rfl⟩ : ∃ f, fuel = f + 2 := ⟨fuel - 2, by omega⟩
  change Merger.mergeLoop mergeOnce _ listing longSamples 8 (f + 1 + 1) 0 (Model.from_ longVocab) = _
  obtain ⟨added, hr, _, he⟩ := Merger.mergeLoop_succ (c := mergeOnce) hs hl (start := 8) (v := longVocab) (by decide)
    ⟨_, long_encoded⟩ (f + 1) 0
  have hab : MergeOf mergeOnce longVocab (2, 3) scaledAB :=
    ⟨⟨[97], F64.minus 1, true⟩, ⟨[98], F64.minus 1, true⟩, rfl, rfl, rfl, by decide +kernel, rfl, by decide, rfl⟩
  have : added = [scaledAB] := by
    obtain ⟨idss, pairs, h1, h2, h3, h4, h5, h6, _⟩ := hr
    have := Merger.encodedAs_unique long_encoded h1
    subst this
    have hcount : ∀ p, p ≠ (2, 3) → pairCount [[2, 3], [2, 3], [4, 3], [5, 3], [6, 3], [7, 3]] p ≤ 1 := by
      intro p hp
      by_contra hgt
      obtain ⟨ids, h1, h2⟩ := Merger.pairCount_pos (show 0 < pairCount [[2, 3], [2, 3], [4, 3], [5, 3], [6, 3], [7, 3]] p by omega)
      simp only [List.mem_cons, List.not_mem_nil, or_false] at h1
      rcases h1 with rfl | rfl | rfl | rfl | rfl | rfl <;> simp [adjacent] at h2 <;> subst h2 <;> revert hgt hp <;> decide
    have hin : (2, 3) ∈ pairs := by
      by_contra hnot
      obtain ⟨h7, h8⟩ := h6 _ _ hab (by decide) hnot
      rcases pairs with _ | ⟨p, ps⟩
      · revert h7; decide
      · have h9 := h8 p (by simp)
        have := hcount p (fun e => hnot (by rw [← e]; simp))
        have h2 : pairCount [[2, 3], [2, 3], [4, 3], [5, 3], [6, 3], [7, 3]] (2, 3) = 2 := by decide
        omega
    have hlen : pairs.length ≤ 1 := h5
    have hp : pairs = [(2, 3)] := by
      rcases pairs with _ | ⟨p, _ | ⟨q, ps⟩⟩
      · simp at hin
      · simp at hin; rw [hin]
      · simp at hlen
    subst hp
    cases h2 with
    | cons hm hrest =>
      cases hrest
      rw [Merger.mergeOf_unique hm hab]
  subst this
  rw [he, if_neg (by decide)]
  exact Merger.mergeLoop_done (by simp [longVocab, mergeOnce]) f 1

end Tokengeex

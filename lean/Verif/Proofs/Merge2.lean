import Verif.Proofs.Merge
import Verif.Spec.Merge
import Verif.Props.Counting
import Verif.Props.Model
/-
Rounds of merging.
-/
namespace Tokengeex
open Spec Parallel ScoreOps
namespace Merger
variable {F : Type} [ScoreOps F]

theorem encodedAs_iff {rnd : Nat → F} {samples : List Str} {v : List (ScoredToken F)} :
    (∃ idss, EncodedAs rnd samples v idss) ↔
      ∀ s ∈ samples, ∃ ids, (Model.from_ v).encode s zero rnd = .ok ids := by
  unfold EncodedAs
  induction samples with
  | nil => simp [pure, Except.pure]
  | cons s samples ih =>
    rw [List.forall_mem_cons, ← ih]
    rw [List.mapM_cons]
    cases he : (Model.from_ v).encode s zero rnd with
    | error e => simp
    | ok ids =>
      simp only [res_bind_ok, Except.ok.injEq, exists_eq', true_and]
      cases hr : samples.mapM (fun s => (Model.from_ v).encode s zero rnd) with
      | error e => simp
      | ok idss => simp

theorem encodedAs_mem {rnd : Nat → F} {samples : List Str} {v : List (ScoredToken F)} {idss : List (List Nat)}
    (h : EncodedAs rnd samples v idss) : ∀ ids ∈ idss, ∃ s ∈ samples, (Model.from_ v).encode s zero rnd = .ok ids := by
  unfold EncodedAs at h
  induction samples generalizing idss with
  | nil => simp [pure, Except.pure] at h; subst h; simp
  | cons s samples ih =>
    rw [List.mapM_cons] at h
    cases he : (Model.from_ v).encode s zero rnd with
    | error e => rw [he] at h; simp at h
    | ok ids =>
      rw [he] at h
      simp only [res_bind_ok] at h
      cases hr : samples.mapM (fun s => (Model.from_ v).encode s zero rnd) with
      | error e => rw [hr] at h; simp at h
      | ok idss' =>
        rw [hr] at h
        simp only [res_bind_ok, res_pure, Except.ok.injEq] at h
        subst h
        intro x hx
        rcases List.mem_cons.1 hx with rfl | hx
        · exact ⟨s, by simp, he⟩
        · obtain ⟨s', h1, h2⟩ := ih hr x hx
          exact ⟨s', by simp [h1], h2⟩

theorem countChunk_iff {rnd : Nat → F} {samples : List Str} {v : List (ScoredToken F)} :
    (∃ t, countChunk (Model.from_ v) rnd samples [] = .ok t) ↔ ∃ idss, EncodedAs rnd samples v idss := by
  rw [countChunk_ok, encodedAs_iff]

/-- A pair that occurs is a pair of neighbours in the encoding of a sample. -/
theorem pairCount_pos {idss : List (List Nat)} {p : Nat × Nat} (h : 0 < pairCount idss p) :
    ∃ ids ∈ idss, p ∈ adjacent ids := by
  by_contra hcon
  push Not at hcon
  have : pairCount idss p = 0 := by
    unfold pairCount
    refine List.sum_eq_zero fun x hx => ?_
    obtain ⟨ids, hi, rfl⟩ := List.mem_map.1 hx
    exact List.count_eq_zero.2 (hcon ids hi)
  omega

theorem mem_adjacent_lt {ids : List Nat} {p : Nat × Nat} (h : p ∈ adjacent ids) :
    ∃ pre post, ids = pre ++ p.1 :: p.2 :: post := by
  induction ids with
  | nil => simp [adjacent] at h
  | cons a ids ih =>
    cases ids with
    | nil => simp [adjacent] at h
    | cons b ids =>
      rw [adjacent_cons] at h
      rcases List.mem_cons.1 h with rfl | h
      · exact ⟨[], ids, rfl⟩
      · obtain ⟨pre, post, e⟩ := ih h
        exact ⟨a :: pre, post, by rw [e]; rfl⟩

/-- The facts about a listing. -/
theorem listing_spec {rnd : Nat → F} {sorter : Sorter ((Nat × Nat) × Nat)} (hs : SortLaws sorter) {samples : List Str}
    {v : List (ScoredToken F)} {idss : List (List Nat)} (he : EncodedAs rnd samples v idss)
    {pairs : List ((Nat × Nat) × Nat)} (h : Listing (Model.from_ v) rnd sorter samples pairs) :
    (pairs.map (·.1)).Nodup ∧ (∀ p n, (p, n) ∈ pairs ↔ pairCount idss p = n ∧ n ≠ 0) ∧
      pairs.Pairwise (fun a b => b.2 ≤ a.2) ∧ ∀ e ∈ pairs, e.1.1 < v.length ∧ e.1.2 < v.length := by
  obtain ⟨val, entries, hv, ⟨hnd, hmem⟩, rfl⟩ := h
  have hval : val = pairCount idss := funext fun p => C50_pairs _ rnd samples idss he val hv p
  subst hval
  obtain ⟨hp, hso⟩ := sort_counts hs entries
  have hm2 : ∀ p n, (p, n) ∈ sorter.run (fun a b => compare b.2 a.2) entries ↔ pairCount idss p = n ∧ n ≠ 0 := by
    intro p n
    rw [hp.mem_iff, hmem]
  refine ⟨(hp.map _).nodup_iff.2 hnd, hm2, hso, ?_⟩
  rintro ⟨p, n⟩ hin
  obtain ⟨h1, h2⟩ := (hm2 p n).1 hin
  obtain ⟨ids, hi, ha⟩ := pairCount_pos (idss := idss) (p := p) (by omega)
  obtain ⟨s, _, hs'⟩ := encodedAs_mem he ids hi
  have hlt := (C01_encode_lossless v s zero rnd ids hs').1
  obtain ⟨pre, post, e⟩ := mem_adjacent_lt ha
  exact ⟨hlt _ (by rw [e]; simp), hlt _ (by rw [e]; simp)⟩

/-- Listings exist. -/
theorem listing_exists (rnd : Nat → F) (sorter : Sorter ((Nat × Nat) × Nat)) (samples : List Str)
    (v : List (ScoredToken F)) (he : ∃ idss, EncodedAs rnd samples v idss) :
    ∃ pairs, Listing (Model.from_ v) rnd sorter samples pairs := by
  obtain ⟨val, hv⟩ := parCount_exists (Worker := Worker (Model.from_ v) rnd) (fun _ => 0) 1 (by omega) samples (by
    intro chunk hc
    have hsub : ∀ s ∈ chunk, ∃ ids, (Model.from_ v).encode s zero rnd = .ok ids := by
      intro s hs
      refine encodedAs_iff.1 he s ?_
      rw [← chunks_flatten 1 (by omega) samples]
      exact List.mem_flatten.2 ⟨chunk, hc, hs⟩
    obtain ⟨t, ht⟩ := (countChunk_ok (Model.from_ v) rnd chunk []).2 hsub
    exact ⟨_, ⟨t, t, ht, .refl _, rfl⟩, safe_locked _⟩)
  obtain ⟨idss, hidss⟩ := he
  have hval : val = pairCount idss := funext fun p => C50_pairs _ rnd samples idss hidss val hv p
  obtain ⟨entries, hi⟩ := iteration_exists val (idss.flatMap adjacent) (by
    intro p hp
    rw [hval] at hp
    obtain ⟨ids, h1, h2⟩ := pairCount_pos (idss := idss) (p := p) (by omega)
    exact List.mem_flatMap.2 ⟨ids, h1, h2⟩)
  exact ⟨_, val, entries, hv, hi, rfl⟩

/-- An oracle for the listings exists. -/
theorem listings_exist (rnd : Nat → F) (sorter : Sorter ((Nat × Nat) × Nat)) (samples : List Str) :
    ∃ listing : Nat → Model F → List ((Nat × Nat) × Nat), Listings rnd sorter samples listing := by
  classical
  refine ⟨fun _ m => if h : ∃ pairs, Listing m rnd sorter samples pairs then h.choose else [], ?_⟩
  intro r v he
  have h := listing_exists rnd sorter samples v he
  simp only [h, dif_pos]
  exact h.choose_spec

variable [Mul F]

/-- The merge of a pair, if it is allowed. -/
def tokenFor (c : Merger F) (v : List (ScoredToken F)) (p : Nat × Nat) : Option (ScoredToken F) :=
  match v[p.1]?, v[p.2]? with
  | some a, some b =>
    if decide ((c.mergedToken a b).len > c.maxTokenLength) || !c.allow (lossy (c.mergedToken a b).value) then none
    else some (c.mergedToken a b)
  | _, _ => none

theorem tokenFor_iff {c : Merger F} {v : List (ScoredToken F)} {p : Nat × Nat} {t : ScoredToken F} :
    tokenFor c v p = some t ↔ MergeOf c v p t := by
  unfold tokenFor MergeOf
  cases ha : v[p.1]? with
  | none => simp
  | some a =>
    cases hb : v[p.2]? with
    | none => simp
    | some b =>
      simp only [Option.some.injEq]
      by_cases hc : (decide ((c.mergedToken a b).len > c.maxTokenLength) || !c.allow (lossy (c.mergedToken a b).value)) = true
      · rw [if_pos hc]
        simp only [Bool.or_eq_true, decide_eq_true_eq, Bool.not_eq_true'] at hc
        constructor
        · intro h; simp at h
        · rintro ⟨a', b', rfl, rfl, h1, _, _, h4, h5⟩
          rw [h1] at h4 h5
          rcases hc with hc | hc
          · simp only [ScoredToken.len, mergedToken] at hc; omega
          · simp only [mergedToken] at hc; rw [hc] at h5; simp at h5
      · rw [if_neg hc]
        simp only [Bool.or_eq_true, decide_eq_true_eq, Bool.not_eq_true', not_or] at hc
        constructor
        · intro h
          simp only [Option.some.injEq] at h
          subst h
          refine ⟨a, b, rfl, rfl, rfl, rfl, rfl, ?_, by simpa using hc.2⟩
          have := hc.1
          simp only [ScoredToken.len] at this
          omega
        · rintro ⟨a', b', rfl, rfl, h1, h2, h3, _⟩
          simp only [Option.some.injEq]
          cases t
          simp only at h1 h2 h3
          subst h1; subst h2; subst h3
          rfl

/-- The loop over the pairs adds the first allowed merges. -/
theorem mergePairs_eq (c : Merger F) (v : List (ScoredToken F)) : ∀ (pairs : List ((Nat × Nat) × Nat)) (k : Nat)
    (extra : List (ScoredToken F)), (∀ e ∈ pairs, e.1.1 < v.length ∧ e.1.2 < v.length) →
    mergePairs c k (Model.from_ (v ++ extra)) pairs =
      .ok (k - ((pairs.filterMap fun e => tokenFor c v e.1).take k).length,
        Model.from_ (v ++ extra ++ (pairs.filterMap fun e => tokenFor c v e.1).take k)) := by
  intro pairs
  induction pairs with
  | nil => intro k extra _; simp [mergePairs]
  | cons e pairs ih =>
    intro k extra h
    obtain ⟨⟨pa, pb⟩, n⟩ := e
    unfold mergePairs
    by_cases hk : k = 0
    · subst hk; simp
    · rw [if_neg hk]
      obtain ⟨h1, h2⟩ := h _ (List.mem_cons_self ..)
      simp only at h1 h2
      have e1 : idx (Model.from_ (v ++ extra)).vocab pa = .ok v[pa] := by
        refine idx_of_getElem? ?_
        rw [Model.from_vocab, List.getElem?_append_left h1, List.getElem?_eq_getElem h1]
      have e2 : idx (Model.from_ (v ++ extra)).vocab pb = .ok v[pb] := by
        refine idx_of_getElem? ?_
        rw [Model.from_vocab, List.getElem?_append_left h2, List.getElem?_eq_getElem h2]
      rw [e1, e2]
      simp only [res_bind_ok]
      have ih' := fun k extra => ih k extra (fun e he => h e (List.mem_cons_of_mem _ he))
      have htok : tokenFor c v (pa, pb) =
          if decide ((c.mergedToken v[pa] v[pb]).len > c.maxTokenLength) ||
            !c.allow (lossy (c.mergedToken v[pa] v[pb]).value) then none
          else some (c.mergedToken v[pa] v[pb]) := by
        unfold tokenFor
        simp only [List.getElem?_eq_getElem h1, List.getElem?_eq_getElem h2]
      by_cases hc : (decide ((c.mergedToken v[pa] v[pb]).len > c.maxTokenLength) ||
          !c.allow (lossy (c.mergedToken v[pa] v[pb]).value)) = true
      · rw [if_pos hc] at htok ⊢
        rw [ih', List.filterMap_cons, htok]
      · rw [if_neg hc] at htok ⊢
        rw [List.filterMap_cons, htok, ← Model.from_append, List.append_assoc, ih' (k - 1)]
        simp only
        obtain ⟨k', rfl⟩ : ∃ k', k = k' + 1 := ⟨k - 1, by omega⟩
        simp only [Nat.add_sub_cancel, List.take_succ_cons, List.length_cons]
        congr 1
        refine Prod.ext ?_ ?_
        · simp only; omega
        · simp [List.append_assoc]

/-- The loop over the pairs of a listing is a round. -/
theorem round_of_listing {c : Merger F} {rnd : Nat → F} {sorter : Sorter ((Nat × Nat) × Nat)} (hs : SortLaws sorter)
    {samples : List Str} {v : List (ScoredToken F)} {idss : List (List Nat)} (he : EncodedAs rnd samples v idss)
    {pairs : List ((Nat × Nat) × Nat)} (h : Listing (Model.from_ v) rnd sorter samples pairs) (k : Nat) :
    Round c rnd samples k v ((pairs.filterMap fun e => tokenFor c v e.1).take k) := by
  obtain ⟨hnd, hmem, hso, _⟩ := listing_spec hs he h
  -- the pairs that are allowed
  let ok := pairs.filter (fun e => (tokenFor c v e.1).isSome)
  have hfm : ∀ ps : List ((Nat × Nat) × Nat), List.Forall₂ (MergeOf c v)
      ((ps.filter (fun e => (tokenFor c v e.1).isSome)).map (·.1)) (ps.filterMap fun e => tokenFor c v e.1) := by
    intro ps
    induction ps with
    | nil => exact .nil
    | cons e ps ih =>
      rw [List.filter_cons, List.filterMap_cons]
      cases ht : tokenFor c v e.1 with
      | none =>
        rw [if_neg (by simp)]
        exact ih
      | some t =>
        rw [if_pos (by simp)]
        exact .cons (tokenFor_iff.1 ht) ih
  have hf := hfm pairs
  have hft : List.Forall₂ (MergeOf c v) ((ok.map (·.1)).take k) ((pairs.filterMap fun e => tokenFor c v e.1).take k) :=
    List.forall₂_take k hf
  have hsub : (ok.map (·.1)).Sublist (pairs.map (·.1)) := (List.filter_sublist).map _
  refine ⟨idss, (ok.map (·.1)).take k, he, hft, (hnd.sublist hsub).sublist (List.take_sublist _ _), ?_,
    by rw [List.length_take]; omega, ?_, ?_⟩
  · intro p hp
    have : p ∈ pairs.map (·.1) := hsub.subset ((List.take_sublist _ _).subset hp)
    obtain ⟨⟨p', n⟩, h1, rfl⟩ := List.mem_map.1 this
    have := (hmem p' n).1 h1
    simp only; omega
  · intro q t hq hpos hnot
    have hq1 : (q, pairCount idss q) ∈ pairs := (hmem _ _).2 ⟨rfl, by omega⟩
    have hq2 : (q, pairCount idss q) ∈ ok := by
      refine List.mem_filter.2 ⟨hq1, ?_⟩
      rw [tokenFor_iff.2 hq]; rfl
    have hq3 : (q, pairCount idss q) ∈ ok.drop k := by
      rw [← List.take_append_drop k ok, List.mem_append] at hq2
      rcases hq2 with h2 | h2
      · exfalso
        apply hnot
        rw [← List.map_take]
        exact List.mem_map.2 ⟨_, h2, rfl⟩
      · exact h2
    constructor
    · have := List.length_pos_of_mem hq3
      rw [List.length_drop] at this
      rw [List.length_take, List.length_map]; omega
    · intro p hp
      rw [← List.map_take] at hp
      obtain ⟨⟨p', n⟩, h1, rfl⟩ := List.mem_map.1 hp
      have hso' : ok.Pairwise (fun a b => b.2 ≤ a.2) := hso.sublist List.filter_sublist
      rw [← List.take_append_drop k ok, List.pairwise_append] at hso'
      have h2 := hso'.2.2 _ h1 _ hq3
      have h3 : (p', n) ∈ pairs := (List.filter_sublist).subset ((List.take_sublist _ _).subset h1)
      have h4 := (hmem p' n).1 h3
      simp only at h2 ⊢
      omega
  · have hso' : ok.Pairwise (fun a b => pairCount idss b.1 ≤ pairCount idss a.1) :=
      (hso.sublist List.filter_sublist).imp_of_mem fun {a b} ha hb hab => by
        have ha' := (hmem a.1 a.2).1 (List.filter_sublist.subset ha)
        have hb' := (hmem b.1 b.2).1 (List.filter_sublist.subset hb)
        omega
    exact (List.pairwise_map.2 hso').sublist (List.take_sublist _ _)

omit [Mul F] in
theorem encodedAs_unique {rnd : Nat → F} {samples : List Str} {v : List (ScoredToken F)} {a b : List (List Nat)}
    (h1 : EncodedAs rnd samples v a) (h2 : EncodedAs rnd samples v b) : a = b := by
  unfold EncodedAs at h1 h2
  rw [h1] at h2
  simpa using h2

/-- One pass of the loop. -/
theorem mergeLoop_eq {c : Merger F} {rnd : Nat → F} {sorter : Sorter ((Nat × Nat) × Nat)} (hs : SortLaws sorter)
    {samples : List Str} {listing : Nat → Model F → List ((Nat × Nat) × Nat)} (hl : Listings rnd sorter samples listing)
    {start : Nat} {v : List (ScoredToken F)} (hlt : v.length < start + c.numMerges)
    (he : ∃ idss, EncodedAs rnd samples v idss) (fuel round : Nat) :
    mergeLoop c rnd listing samples start (fuel + 1) round (Model.from_ v) =
      if roundLimit c start v - ((((listing round (Model.from_ v)).filterMap
        fun e => tokenFor c v e.1).take (roundLimit c start v))).length = c.step then
        .ok (Model.from_ (v ++ ((listing round (Model.from_ v)).filterMap
          fun e => tokenFor c v e.1).take (roundLimit c start v)))
      else mergeLoop c rnd listing samples start fuel (round + 1) (Model.from_ (v ++
        ((listing round (Model.from_ v)).filterMap fun e => tokenFor c v e.1).take (roundLimit c start v))) := by
  obtain ⟨idss, hidss⟩ := he
  have hlist := hl round v ⟨idss, hidss⟩
  obtain ⟨t, ht⟩ := countChunk_iff.2 ⟨idss, hidss⟩
  have hvs : (Model.from_ v).vocabSize = v.length := by rw [Model.vocabSize, Model.from_vocab]
  rw [mergeLoop, hvs, if_pos hlt, ht]
  simp only [res_bind_ok]
  have hmp := mergePairs_eq c v (listing round (Model.from_ v)) (roundLimit c start v) []
    (listing_spec hs hidss hlist).2.2.2
  rw [List.append_nil] at hmp
  change (mergePairs c (roundLimit c start v) (Model.from_ v) (listing round (Model.from_ v)) >>= _) = _
  rw [hmp]
  simp only [res_bind_ok]

theorem mergeLoop_succ {c : Merger F} {rnd : Nat → F} {sorter : Sorter ((Nat × Nat) × Nat)} (hs : SortLaws sorter)
    {samples : List Str} {listing : Nat → Model F → List ((Nat × Nat) × Nat)} (hl : Listings rnd sorter samples listing)
    {start : Nat} {v : List (ScoredToken F)} (hlt : v.length < start + c.numMerges)
    (he : ∃ idss, EncodedAs rnd samples v idss) (fuel round : Nat) :
    ∃ added, Round c rnd samples (roundLimit c start v) v added ∧ added.length ≤ roundLimit c start v ∧
      mergeLoop c rnd listing samples start (fuel + 1) round (Model.from_ v) =
        if roundLimit c start v - added.length = c.step then .ok (Model.from_ (v ++ added))
        else mergeLoop c rnd listing samples start fuel (round + 1) (Model.from_ (v ++ added)) :=
  ⟨_, round_of_listing hs he.choose_spec (hl round v he) _, by rw [List.length_take]; omega,
    mergeLoop_eq hs hl hlt he fuel round⟩

theorem mergeLoop_done {c : Merger F} {rnd : Nat → F} {samples : List Str}
    {listing : Nat → Model F → List ((Nat × Nat) × Nat)} {start : Nat} {v : List (ScoredToken F)}
    (hge : ¬ v.length < start + c.numMerges) (fuel round : Nat) :
    mergeLoop c rnd listing samples start (fuel + 1) round (Model.from_ v) = .ok (Model.from_ v) := by
  have hvs : (Model.from_ v).vocabSize = v.length := by rw [Model.vocabSize, Model.from_vocab]
  rw [mergeLoop, hvs, if_neg hge]

theorem mergeLoop_panic {c : Merger F} {rnd : Nat → F} {samples : List Str}
    {listing : Nat → Model F → List ((Nat × Nat) × Nat)} {start : Nat} {v : List (ScoredToken F)}
    (hlt : v.length < start + c.numMerges) (hn : ¬ ∃ idss, EncodedAs rnd samples v idss) (fuel round : Nat) :
    mergeLoop c rnd listing samples start (fuel + 1) round (Model.from_ v) = .error .panic := by
  have hvs : (Model.from_ v).vocabSize = v.length := by rw [Model.vocabSize, Model.from_vocab]
  rw [mergeLoop, hvs, if_pos hlt]
  rcases countChunk_outcomes (Model.from_ v) rnd samples [] with ⟨t, ht⟩ | ht
  · exact absurd (countChunk_iff.1 ⟨t, ht⟩) hn
  · rw [ht]; simp

/-- A round that adds nothing although it may: nothing is left. -/
theorem round_nil {c : Merger F} {rnd : Nat → F} {samples : List Str} {limit : Nat} {v : List (ScoredToken F)}
    (hl : limit ≠ 0) (h : Round c rnd samples limit v []) : NoMergeLeft c rnd samples v := by
  obtain ⟨idss, pairs, h1, h2, _, _, _, h6, _⟩ := h
  cases h2
  refine ⟨idss, h1, ?_⟩
  intro p t hp
  by_contra hne
  have := (h6 p t hp (by omega) (by simp)).1
  simp at this
  omega

theorem nil_of_noMergeLeft {c : Merger F} {rnd : Nat → F} {samples : List Str} {limit : Nat}
    {v added : List (ScoredToken F)} (hn : NoMergeLeft c rnd samples v) (h : Round c rnd samples limit v added) :
    added = [] := by
  obtain ⟨idss, hi, hnone⟩ := hn
  obtain ⟨idss', pairs, h1, h2, _, h4, _, _⟩ := h
  have := encodedAs_unique hi h1
  subst this
  cases h2 with
  | nil => rfl
  | cons hp _ =>
    have h7 := hnone _ _ hp
    have h8 := h4 _ (List.mem_cons_self ..)
    omega

/-- What a successful run of the loop has done. -/
theorem mergeLoop_rounds {c : Merger F} {rnd : Nat → F} {sorter : Sorter ((Nat × Nat) × Nat)} (hs : SortLaws sorter)
    {samples : List Str} {listing : Nat → Model F → List ((Nat × Nat) × Nat)} (hl : Listings rnd sorter samples listing)
    {start : Nat} {v0 : List (ScoredToken F)} : ∀ (fuel round : Nat) (v : List (ScoredToken F)),
    Rounds c rnd samples start v0 v → start ≤ v.length → v.length ≤ start + c.numMerges → ∀ m',
    mergeLoop c rnd listing samples start fuel round (Model.from_ v) = .ok m' →
    ∃ w, m' = Model.from_ w ∧ Rounds c rnd samples start v0 w ∧ w.length ≤ start + c.numMerges ∧
      (w.length = start + c.numMerges ∨ c.step = 0 ∨ NoMergeLeft c rnd samples w) := by
  intro fuel
  induction fuel with
  | zero => intro round v _ _ _ m' h; simp [mergeLoop] at h
  | succ fuel ih =>
    intro round v hr hge hle m' h
    by_cases hlt : v.length < start + c.numMerges
    · by_cases he : ∃ idss, EncodedAs rnd samples v idss
      · obtain ⟨added, hround, hlen, heq⟩ := mergeLoop_succ (c := c) hs hl hlt he fuel round
        rw [heq] at h
        have hb : added.length ≤ c.numMerges - (v.length - start) := by unfold roundLimit at hlen; omega
        have hr' := Rounds.tail hr hround
        by_cases hbr : roundLimit c start v - added.length = c.step
        · rw [if_pos hbr] at h
          simp only [Except.ok.injEq] at h
          refine ⟨v ++ added, h.symm, hr', by rw [List.length_append]; omega, ?_⟩
          right
          by_cases h0 : c.step = 0
          · exact Or.inl h0
          · right
            have : added = [] := by
              cases added with
              | nil => rfl
              | cons t ts => unfold roundLimit at hbr; simp only [List.length_cons] at hbr; omega
            subst this
            rw [List.append_nil]
            exact round_nil (by simp at hbr; omega) hround
        · rw [if_neg hbr] at h
          exact ih (round + 1) (v ++ added) hr' (by rw [List.length_append]; omega)
            (by rw [List.length_append]; omega) m' h
      · rw [mergeLoop_panic hlt he] at h; simp at h
    · rw [mergeLoop_done hlt] at h
      simp only [Except.ok.injEq] at h
      exact ⟨v, h.symm, hr, hle, Or.inl (by omega)⟩

/-- In a stuck state the loop never ends. -/
theorem mergeLoop_stuck {c : Merger F} {rnd : Nat → F} {sorter : Sorter ((Nat × Nat) × Nat)} (hs : SortLaws sorter)
    {samples : List Str} {listing : Nat → Model F → List ((Nat × Nat) × Nat)} (hl : Listings rnd sorter samples listing)
    {start : Nat} {v : List (ScoredToken F)} (hlt : v.length < start + c.numMerges) (hge : start ≤ v.length)
    (hst : start + c.numMerges - v.length < c.step) (hn : NoMergeLeft c rnd samples v) : ∀ fuel round,
    mergeLoop c rnd listing samples start fuel round (Model.from_ v) = .error .diverge := by
  intro fuel
  induction fuel with
  | zero => intro round; rfl
  | succ fuel ih =>
    intro round
    obtain ⟨added, hround, _, heq⟩ := mergeLoop_succ (c := c) hs hl hlt ⟨hn.choose, hn.choose_spec.1⟩ fuel round
    have := nil_of_noMergeLeft hn hround
    subst this
    rw [heq, if_neg, List.append_nil, ih]
    unfold roundLimit
    simp only [List.length_nil]
    omega

/-- From every state the loop ends or gets stuck. -/
theorem mergeLoop_ends {c : Merger F} {rnd : Nat → F} {sorter : Sorter ((Nat × Nat) × Nat)} (hs : SortLaws sorter)
    {samples : List Str} {listing : Nat → Model F → List ((Nat × Nat) × Nat)} (hl : Listings rnd sorter samples listing)
    {start : Nat} {v0 : List (ScoredToken F)} : ∀ (n : Nat) (v : List (ScoredToken F)),
    start + c.numMerges - v.length ≤ n →
    Rounds c rnd samples start v0 v → start ≤ v.length →
    (∀ s ∈ samples, BytesCovered v (enc s)) → ∀ round,
    (∃ fuel₀ m', ∀ fuel ≥ fuel₀, mergeLoop c rnd listing samples start fuel round (Model.from_ v) = .ok m') ∨
    ((∃ w, Rounds c rnd samples start v0 w ∧ NoMergeLeft c rnd samples w ∧ start ≤ w.length ∧
        w.length < start + c.numMerges ∧ start + c.numMerges - w.length < c.step) ∧
      ∀ fuel, mergeLoop c rnd listing samples start fuel round (Model.from_ v) = .error .diverge) := by
  intro n
  induction n using Nat.strongRecOn with
  | _ n ih =>
    intro v hn hr hge hc round
    by_cases hlt : v.length < start + c.numMerges
    · have he : ∃ idss, EncodedAs rnd samples v idss :=
        encodedAs_iff.2 fun s h => C04_dropout_total v s zero rnd (hc s h)
      by_cases hstuck : NoMergeLeft c rnd samples v ∧ start + c.numMerges - v.length < c.step
      · exact Or.inr ⟨⟨v, hr, hstuck.1, hge, hlt, hstuck.2⟩,
          fun fuel => mergeLoop_stuck hs hl hlt hge hstuck.2 hstuck.1 fuel round⟩
      · -- the merges made do not depend on the fuel
        have heq : ∀ fuel, mergeLoop c rnd listing samples start (fuel + 1) round (Model.from_ v) =
            if roundLimit c start v - ((((listing round (Model.from_ v)).filterMap
              fun e => tokenFor c v e.1).take (roundLimit c start v))).length = c.step then
              .ok (Model.from_ (v ++ ((listing round (Model.from_ v)).filterMap
                fun e => tokenFor c v e.1).take (roundLimit c start v)))
            else mergeLoop c rnd listing samples start fuel (round + 1) (Model.from_ (v ++
              ((listing round (Model.from_ v)).filterMap fun e => tokenFor c v e.1).take (roundLimit c start v))) :=
          fun fuel => mergeLoop_eq hs hl hlt he fuel round
        have hround := round_of_listing (c := c) hs he.choose_spec (hl round v he) (roundLimit c start v)
        generalize ((listing round (Model.from_ v)).filterMap fun e => tokenFor c v e.1).take (roundLimit c start v) =
          added at heq hround
        have hlen : added.length ≤ roundLimit c start v := by
          obtain ⟨_, pairs, _, h2, _, _, h5, _⟩ := hround
          rw [← h2.length_eq]; exact h5
        by_cases hbr : roundLimit c start v - added.length = c.step
        · left
          refine ⟨1, Model.from_ (v ++ added), ?_⟩
          intro fuel hf
          obtain ⟨f, rfl⟩ : ∃ f, fuel = f + 1 := ⟨fuel - 1, by omega⟩
          rw [heq f, if_pos hbr]
        · have hne : added ≠ [] := by
            rintro rfl
            simp only [List.length_nil, Nat.sub_zero] at hbr
            apply hstuck
            constructor
            · refine round_nil ?_ hround
              unfold roundLimit at hbr ⊢
              omega
            · unfold roundLimit at hbr
              omega
          have hpos : 0 < added.length := List.length_pos_iff.2 hne
          rcases ih (start + c.numMerges - (v ++ added).length) (by rw [List.length_append]; omega) (v ++ added)
            (Nat.le_refl _) (.tail hr hround)
            (by rw [List.length_append]; omega)
            (fun s hs' b hb => by
              obtain ⟨t, ht, e⟩ := hc s hs' b hb
              exact ⟨t, List.mem_append_left _ ht, e⟩) (round + 1) with ⟨f0, m', hm⟩ | ⟨hw, hd⟩
          · left
            refine ⟨f0 + 1, m', ?_⟩
            intro fuel hf
            obtain ⟨f, rfl⟩ : ∃ f, fuel = f + 1 := ⟨fuel - 1, by omega⟩
            rw [heq f, if_neg hbr]
            exact hm f (by omega)
          · right
            refine ⟨hw, ?_⟩
            intro fuel
            cases fuel with
            | zero => rfl
            | succ f => rw [heq f, if_neg hbr]; exact hd f
    · left
      refine ⟨1, Model.from_ v, ?_⟩
      intro fuel hf
      obtain ⟨f, rfl⟩ : ∃ f, fuel = f + 1 := ⟨fuel - 1, by omega⟩
      exact mergeLoop_done hlt f round

end Merger
end Tokengeex

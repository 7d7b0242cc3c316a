import Verif.Proofs.Dropout
import Verif.Props.Lattice
/-
C88: what dropout means.
-/
namespace Tokengeex
open Spec ScoreOps

variable {F : Type} [ScoreOps F]

namespace Model

/-- The place of a token of several bytes. -/
def placeOf (e : Entry F) : Option (Nat × Nat) := if e.len ≤ 1 then none else some (e.pos, e.pos + e.len)

theorem allEntries_steps (m : Model F) (input : List UInt8) :
    allEntries m input = (m.stepsBelow input input.length).map fun s => ⟨s.1, s.2.1, s.2.2, scoreOf m.vocab s.2.1⟩ := by
  unfold allEntries stepsBelow
  rw [List.map_flatMap]
  congr 1
  funext p
  unfold entriesAt stepsAt
  rw [List.map_map]
  rfl

theorem multi_entries (m : Model F) (input : List UInt8) :
    multi (m.stepsBelow input input.length) = (allEntries m input).filterMap placeOf := by
  rw [allEntries_steps, List.filterMap_map]
  rfl

omit [ScoreOps F] in
theorem placeOf_some {e : Entry F} {x : Nat × Nat} (h : placeOf e = some x) : 1 < e.len ∧ x = (e.pos, e.pos + e.len) := by
  unfold placeOf at h
  by_cases hl : e.len ≤ 1
  · rw [if_pos hl] at h; cases h
  · rw [if_neg hl] at h
    exact ⟨by omega, (Option.some.inj h).symm⟩

theorem places_nodup (vocab : List (ScoredToken F)) (input : List UInt8) :
    ((allEntries (from_ vocab) input).filterMap placeOf).Nodup := by
  refine List.Pairwise.filterMap _ ?_ (entries_distinct (wf_from vocab) input)
  intro a b hab x hx y hy
  obtain ⟨-, rfl⟩ := placeOf_some hx
  obtain ⟨-, rfl⟩ := placeOf_some hy
  intro h
  obtain ⟨h1, h2⟩ := Prod.mk.inj h
  omega

theorem mem_places (vocab : List (ScoredToken F)) (input : List UInt8) (i j : Nat) :
    (i, j) ∈ (allEntries (from_ vocab) input).filterMap placeOf ↔ Occurs vocab input i j ∧ i + 1 < j := by
  have hm := wf_from vocab
  rw [List.mem_filterMap]
  constructor
  · rintro ⟨e, he, hp⟩
    obtain ⟨h1, h2⟩ := placeOf_some hp
    obtain ⟨rfl, rfl⟩ := Prod.mk.inj h2
    obtain ⟨h3, -⟩ := (mem_allEntries hm).1 he
    have hlt := edge_lt h3
    obtain ⟨t, ht, hv⟩ := hm.id_value (edge_tok h3)
    exact ⟨⟨hlt.1, hlt.2, t, List.mem_of_getElem? ht, hv⟩, by omega⟩
  · rintro ⟨⟨h1, h2, t, ht, hv⟩, h3⟩
    obtain ⟨id, hid⟩ := (hm.isSome_iff ((input.drop i).take (j - i))).2 ⟨t, ht, hv⟩
    refine ⟨⟨i, id, j - i, scoreOf vocab id⟩, (mem_allEntries hm).2 ⟨?_, rfl⟩, ?_⟩
    · show (from_ vocab).edge input i (i + (j - i)) = some id
      rw [show i + (j - i) = j by omega]
      unfold edge
      rw [if_pos ⟨h1, h2⟩, hid]
    · unfold placeOf
      rw [if_neg (by show ¬ j - i ≤ 1; omega)]
      show some (i, i + (j - i)) = some (i, j)
      rw [show i + (j - i) = j by omega]

open Classical in
/-- The best segmentation when some places are struck. -/
noncomputable def bestWithout (vocab : List (ScoredToken F)) (bs : List UInt8) (struck : Nat → Nat → Prop) : Res (List Nat) :=
  finish bs.length (gTable ((from_ vocab).keptEdge bs fun i j => decide (struck i j)) (scoreOf vocab) bs.length)

theorem bestWithout_best {good tok : F → Prop} (laws : ScoreLaws F good tok) (vocab : List (ScoredToken F))
    (hgood : ∀ t ∈ vocab, tok t.score) (bs : List UInt8) (struck : Nat → Nat → Prop) (hs : ∀ i j, struck i j → i + 1 < j) :
    BestWithout vocab struck bs (bestWithout vocab bs struck) := by
  classical
  have hcut : ∀ ids, Chain ((from_ vocab).keptEdge bs fun i j => decide (struck i j)) bs.length ids ↔ CutsWithout vocab struck bs ids := by
    intro ids
    rw [chain_kept (fun i j => decide_eq_true_iff) hs, chain_iff_spells (Nat.le_refl _), List.take_length]
    unfold CutsWithout
    rw [and_assoc]
  have h := finish_best (e := (from_ vocab).keptEdge bs fun i j => decide (struck i j)) (w := scoreOf vocab)
    keptEdge_lt laws (good_scoreOf laws hgood) bs.length
  have hb : bestWithout vocab bs struck = finish bs.length (gTable ((from_ vocab).keptEdge bs fun i j => decide (struck i j))
      (scoreOf vocab) bs.length) := by
    unfold bestWithout
    congr
  rw [hb]
  rcases h with ⟨ids, h1, h2, h3⟩ | ⟨h1, h2⟩
  · rw [h1]
    exact ⟨(hcut ids).1 h2, fun other ho => h3 other ((hcut other).2 ho)⟩
  · rw [h1]
    exact ⟨rfl, fun ⟨ids, hi⟩ => h2 ⟨ids, (hcut ids).2 hi⟩⟩

end Model

open Model in
/-- `encode` with dropout, coin by coin. -/
theorem encode_chance (vocab : List (ScoredToken F)) (s : Str) (dropout : F) (hd : le dropout zero = false) (p : ℝ)
    (rnd : (Nat → Bool) → Nat → F) (hr : ∀ c k, lt dropout (rnd c k) = !c k) :
    ∃ n₀, ∀ n, n₀ ≤ n → ∀ A : Res (List Nat) → Prop,
      chance p n (fun c => A ((from_ vocab).encode s dropout (rnd c))) =
      chance p ((allEntries (from_ vocab) (enc s)).filterMap placeOf).length
        (fun c => A (bestWithout vocab (enc s) (Chosen ((allEntries (from_ vocab) (enc s)).filterMap placeOf) c))) := by
  classical
  have hm := wf_from vocab
  rw [← multi_entries]
  refine ⟨(multi ((from_ vocab).stepsBelow (enc s) (enc s).length)).length, fun n hn A => ?_⟩
  have key := mean_steps (scoreOf vocab) p (fun T => ind (A (finish (enc s).length T)))
    ((from_ vocab).stepsBelow (enc s) (enc s).length) pInit.1 n hn
  have e1 : ∀ c, ((from_ vocab).stepsBelow (enc s) (enc s).length).foldl (oStep (scoreOf vocab)) (pInit.1, c) =
      (((from_ vocab).pTable dropout (rnd c) (enc s) (enc s).length).1,
        dropCoins dropout (rnd c) ((from_ vocab).pTable dropout (rnd c) (enc s) (enc s).length).2) := by
    intro c
    have := pTable_steps hm hd (rnd c) (enc s) (enc s).length
    have hc : dropCoins dropout (rnd c) 0 = c := by
      funext i
      unfold dropCoins
      rw [hr, Bool.not_not, Nat.zero_add]
    rw [hc] at this
    exact this
  have e2 : ∀ c, (((from_ vocab).stepsBelow (enc s) (enc s).length).foldl (cStep (scoreOf vocab)) (pInit.1, c)).1 =
      gTable ((from_ vocab).keptEdge (enc s)
        fun i j => decide (Chosen (multi ((from_ vocab).stepsBelow (enc s) (enc s).length)) c i j)) (scoreOf vocab) (enc s).length := by
    intro c
    refine (cStep_dStep _ _ _ _ _ ?_).trans (gTable_steps hm _ _ _)
    intro k i j hk
    have hnd : (multi ((from_ vocab).stepsBelow (enc s) (enc s).length)).Nodup := by
      rw [multi_entries]; exact places_nodup vocab _
    by_cases hck : c k = true
    · rw [hck, decide_eq_true_iff]
      exact ⟨k, hk, hck⟩
    · rw [Bool.not_eq_true] at hck
      rw [hck, decide_eq_false_iff_not]
      rintro ⟨k', hk', hc'⟩
      have : k = k' := by
        obtain ⟨h1, h2⟩ := List.getElem?_eq_some_iff.1 hk
        obtain ⟨h3, h4⟩ := List.getElem?_eq_some_iff.1 hk'
        exact (List.Nodup.getElem_inj_iff hnd).1 (h2.trans h4.symm)
      rw [this, hc'] at hck
      cases hck
  simp only [e1, e2] at key
  refine Eq.trans ?_ (key.trans ?_)
  · show mean p n (fun c => ind _) = _
    simp only [encode_finish hm]
  · show _ = mean p _ (fun c => ind _)
    rfl

open Model in
/-- **C88** Draw the random numbers so that each is at most the dropout with chance `p`, independently of the others
(`rnd c` is the sequence of draws for the outcomes `c` of these comparisons).  Let `E` list the places where the text has a
vocabulary token of several bytes.  Strike each of these places with chance `p`, independently of the others, and take a best
segmentation that uses no struck place (`best` says which one), or fail if there is none: `encode` with dropout returns every
result with the same chance, although it throws no coins for places that it does not reach. -/
theorem C88_encode (good tok : F → Prop) (laws : ScoreLaws F good tok) (vocab : List (ScoredToken F))
    (hgood : ∀ t ∈ vocab, tok t.score) (s : Str) (dropout : F) (hd : le dropout zero = false) (p : ℝ)
    (rnd : (Nat → Bool) → Nat → F) (hr : ∀ c k, lt dropout (rnd c k) = !c k) :
    ∃ (E : List (Nat × Nat)) (best : (Nat → Nat → Prop) → Res (List Nat)),
      E.Nodup ∧ (∀ i j, (i, j) ∈ E ↔ Occurs vocab (enc s) i j ∧ i + 1 < j) ∧
      (∀ struck, (∀ i j, struck i j → (i, j) ∈ E) → BestWithout vocab struck (enc s) (best struck)) ∧
      ∃ n₀, ∀ n, n₀ ≤ n → ∀ A : Res (List Nat) → Prop,
        chance p n (fun c => A ((from_ vocab).encode s dropout (rnd c))) =
        chance p E.length (fun c => A (best (Chosen E c))) := by
  refine ⟨(allEntries (from_ vocab) (enc s)).filterMap placeOf, bestWithout vocab (enc s), places_nodup vocab _,
    mem_places vocab _, ?_, ?_⟩
  · intro struck hs
    exact bestWithout_best laws vocab hgood _ struck fun i j h => ((mem_places ..).1 (hs i j h)).2
  · exact encode_chance vocab s dropout hd p rnd hr

/-! ### The lattice -/

namespace Model

/-- The entries left by the coins. -/
def keptBy : (Nat → Bool) → List (Entry F) → List (Entry F)
  | _, [] => []
  | c, e :: es =>
    if e.len ≤ 1 then e :: keptBy c es
    else if c 0 then keptBy (Coins.tail c) es else e :: keptBy (Coins.tail c) es

omit [ScoreOps F] in
theorem keptBy_append (b : List (Entry F)) : ∀ (a : List (Entry F)) (c : Nat → Bool),
    keptBy c (a ++ b) = keptBy c a ++ keptBy (fun k => c ((a.filterMap placeOf).length + k)) b := by
  intro a
  induction a with
  | nil =>
    intro c
    rw [List.nil_append]
    show _ = [] ++ keptBy (fun k => c (0 + k)) b
    simp only [Nat.zero_add, List.nil_append]
  | cons e a ih =>
    intro c
    rw [List.cons_append, keptBy, keptBy]
    by_cases h : e.len ≤ 1
    · have : placeOf e = none := by unfold placeOf; rw [if_pos h]
      rw [if_pos h, if_pos h, ih, List.filterMap_cons_none this, List.cons_append]
    · have : placeOf e = some (e.pos, e.pos + e.len) := by unfold placeOf; rw [if_neg h]
      have ht : (fun k => Coins.tail c ((a.filterMap placeOf).length + k)) =
          fun k => c (((e :: a).filterMap placeOf).length + k) := by
        funext k
        rw [List.filterMap_cons_some this, List.length_cons]
        unfold Coins.tail
        congr 1
        omega
      rw [if_neg h, if_neg h, ih, ht]
      by_cases hc : c 0 = true
      · rw [if_pos hc, if_pos hc]
      · rw [if_neg hc, if_neg hc, List.cons_append]

theorem populateNode_kept {m : Model F} (hm : m.WF) (sentence : List UInt8) (dropout : F) (hd : lt zero dropout = true)
    (rnd : Nat → F) (pos : Nat) (pre : List (Entry F)) {c : Nat × Nat} (hc : c ∈ m.commonPrefixSearch (sentence.drop pos)) :
    m.populateNode dropout rnd pos
      (latticeOf sentence (keptBy (fun k => lt (rnd k) dropout) pre), (pre.filterMap placeOf).length) c =
    .ok (latticeOf sentence (keptBy (fun k => lt (rnd k) dropout) (pre ++ [⟨pos, c.1, c.2, scoreOf m.vocab c.1⟩])),
      ((pre ++ [(⟨pos, c.1, c.2, scoreOf m.vocab c.1⟩ : Entry F)]).filterMap placeOf).length) := by
  obtain ⟨hpos, hle⟩ := cps_pos hm hc
  obtain ⟨t, ht, _⟩ := hm.id_value (edge_tok ((mem_cps hm).1 hc))
  have hsc : scoreOf m.vocab c.1 = t.score := by unfold scoreOf; rw [ht]
  have hins := fun es => insert_latticeOf sentence es ⟨pos, c.1, c.2, scoreOf m.vocab c.1⟩ hle
  unfold populateNode
  rw [idx_of_getElem? ht]
  simp only [res_bind_ok]
  rw [keptBy_append, List.filterMap_append, List.length_append, ← hsc]
  unfold skipNode
  by_cases h1 : c.2 ≤ 1
  · have hp : placeOf (⟨pos, c.1, c.2, scoreOf m.vocab c.1⟩ : Entry F) = none := by unfold placeOf; rw [if_pos h1]
    have hd' : decide (c.2 > 1) = false := decide_eq_false (by omega)
    rw [hd', Bool.false_and, keptBy, if_pos h1, List.filterMap_cons_none hp]
    simp only [Bool.false_eq_true, if_false]
    rw [hins]
    rfl
  · have hp : placeOf (⟨pos, c.1, c.2, scoreOf m.vocab c.1⟩ : Entry F) = some (pos, pos + c.2) := by
      unfold placeOf; rw [if_neg h1]
    have hd' : decide (c.2 > 1) = true := decide_eq_true (by omega)
    rw [hd', hd, Bool.and_true, keptBy, if_neg h1, List.filterMap_cons_some hp]
    simp only [if_true, Nat.add_zero]
    by_cases hr : lt (rnd (pre.filterMap placeOf).length) dropout = true
    · rw [if_pos hr, if_pos hr, keptBy, List.append_nil]
      rfl
    · rw [if_neg hr, if_neg hr, hins, keptBy]
      rfl

theorem populate_kept {m : Model F} (hm : m.WF) (sentence : List UInt8) (dropout : F) (hd : lt zero dropout = true)
    (rnd : Nat → F) : m.populateNodes (latticeOf sentence []) dropout rnd =
      .ok (latticeOf sentence (keptBy (fun k => lt (rnd k) dropout) (allEntries m sentence)),
        ((allEntries m sentence).filterMap placeOf).length) := by
  unfold populateNodes
  have key := foldlM_inv (fun (st : Lattice F × Nat) pos =>
      (m.commonPrefixSearch (sentence.drop pos)).foldlM (populateNode m dropout rnd pos) st)
    (fun pre st => st = (latticeOf sentence (keptBy (fun k => lt (rnd k) dropout) (pre.flatMap (entriesAt m sentence))),
      ((pre.flatMap (entriesAt m sentence)).filterMap placeOf).length))
    (List.range sentence.length) [] (latticeOf sentence [], 0) rfl ?_
  · obtain ⟨s', h1, h2⟩ := key
    rw [List.nil_append] at h2
    rw [show (latticeOf sentence ([] : List (Entry F))).sentence = sentence from rfl, h1, h2]
    rfl
  · intro pre pos st _ hst
    have inner := foldlM_inv (populateNode m dropout rnd pos)
      (fun pre' st => st = (latticeOf sentence (keptBy (fun k => lt (rnd k) dropout) (pre.flatMap (entriesAt m sentence) ++
          pre'.map (fun c => ⟨pos, c.1, c.2, scoreOf m.vocab c.1⟩))),
        ((pre.flatMap (entriesAt m sentence) ++
          pre'.map (fun c => (⟨pos, c.1, c.2, scoreOf m.vocab c.1⟩ : Entry F))).filterMap placeOf).length))
      (m.commonPrefixSearch (sentence.drop pos)) [] st (by rw [List.map_nil, List.append_nil]; exact hst) ?_
    · obtain ⟨s', h1, h2⟩ := inner
      refine ⟨s', h1, ?_⟩
      rw [h2, List.flatMap_append, List.flatMap_singleton, List.nil_append]
      rfl
    · intro pre' c st' hc hst'
      rw [hst']
      refine ⟨_, populateNode_kept hm sentence dropout hd rnd pos _ hc, ?_⟩
      rw [List.map_append, List.append_assoc]
      rfl

open Classical in
omit [ScoreOps F] in
theorem keptBy_filter : ∀ (es : List (Entry F)) (c : Nat → Bool), (es.filterMap placeOf).Nodup →
    keptBy c es = es.filter fun e => decide (¬ Chosen (es.filterMap placeOf) c e.pos (e.pos + e.len) ∨ e.len ≤ 1) := by
  intro es
  induction es with
  | nil => intro c _; rfl
  | cons e es ih =>
    intro c hnd
    rw [keptBy]
    by_cases h : e.len ≤ 1
    · have hp : placeOf e = none := by unfold placeOf; rw [if_pos h]
      rw [if_pos h, List.filterMap_cons_none hp, List.filter_cons, if_pos (by simp [h])]
      rw [List.filterMap_cons_none hp] at hnd
      rw [ih c hnd]
    · have hp : placeOf e = some (e.pos, e.pos + e.len) := by unfold placeOf; rw [if_neg h]
      rw [if_neg h, List.filterMap_cons_some hp, List.filter_cons]
      rw [List.filterMap_cons_some hp, List.nodup_cons] at hnd
      have hhead : Chosen ((e.pos, e.pos + e.len) :: es.filterMap placeOf) c e.pos (e.pos + e.len) ↔ c 0 = true := by
        constructor
        · rintro ⟨k, hk, hc⟩
          cases k with
          | zero => exact hc
          | succ k => exact absurd (List.mem_of_getElem? (show (es.filterMap placeOf)[k]? = _ from hk)) hnd.1
        · exact fun hc => ⟨0, rfl, hc⟩
      have htail : (es.filter fun e' => decide (¬ Chosen ((e.pos, e.pos + e.len) :: es.filterMap placeOf) c e'.pos (e'.pos + e'.len) ∨
            e'.len ≤ 1)) =
          es.filter fun e' => decide (¬ Chosen (es.filterMap placeOf) (Coins.tail c) e'.pos (e'.pos + e'.len) ∨ e'.len ≤ 1) := by
        refine List.filter_congr fun e' he' => ?_
        rw [decide_eq_decide]
        by_cases hl : e'.len ≤ 1
        · simp [hl]
        · have hmem : (e'.pos, e'.pos + e'.len) ∈ es.filterMap placeOf :=
            List.mem_filterMap.2 ⟨e', he', by unfold placeOf; rw [if_neg hl]⟩
          have : Chosen ((e.pos, e.pos + e.len) :: es.filterMap placeOf) c e'.pos (e'.pos + e'.len) ↔
              Chosen (es.filterMap placeOf) (Coins.tail c) e'.pos (e'.pos + e'.len) := by
            constructor
            · rintro ⟨k, hk, hc⟩
              cases k with
              | zero =>
                have : (e.pos, e.pos + e.len) = (e'.pos, e'.pos + e'.len) := by simpa using hk
                exact absurd (this ▸ hmem) hnd.1
              | succ k => exact ⟨k, hk, hc⟩
            · rintro ⟨k, hk, hc⟩
              exact ⟨k + 1, hk, hc⟩
          rw [this]
      rw [htail, ih (Coins.tail c) hnd.2]
      by_cases hc : c 0 = true
      · rw [if_pos hc, if_neg (by simp [hhead, hc, h])]
      · rw [if_neg hc, if_pos (by simp [hhead, hc])]

end Model

open Model in
open Classical in
/-- **C88** In the lattice that training uses, dropout is decided by one random number per place of a token of several bytes,
whatever the other numbers: with the places listed in a fixed order `E`, exactly the nodes at the places whose number is below
the dropout are left out. -/
theorem C88_lattice (vocab : List (ScoredToken F)) (sentence : List UInt8) :
    ∃ (all : List (Entry F)) (E : List (Nat × Nat)), (∀ e, e ∈ all ↔ TokenAt vocab sentence e) ∧ all.Nodup ∧
      E.Nodup ∧ (∀ i j, (i, j) ∈ E ↔ Occurs vocab sentence i j ∧ i + 1 < j) ∧
      ∀ (dropout : F) (rnd : Nat → F), lt zero dropout = true →
        (from_ vocab).populateNodes (latticeOf sentence []) dropout rnd =
        .ok (latticeOf sentence (all.filter fun e => decide (¬ Chosen E (fun k => lt (rnd k) dropout) e.pos (e.pos + e.len))),
          E.length) := by
  refine ⟨allEntries (from_ vocab) sentence, (allEntries (from_ vocab) sentence).filterMap placeOf, fun e => tokenAt_iff, ?_,
    places_nodup vocab sentence, mem_places vocab sentence, fun dropout rnd hd => ?_⟩
  · refine (entries_distinct (wf_from vocab) sentence).imp ?_
    rintro a b h rfl
    omega
  · rw [populate_kept (wf_from vocab) sentence dropout hd rnd, keptBy_filter _ _ (places_nodup vocab sentence)]
    congr 3
    refine List.filter_congr fun e _ => ?_
    rw [decide_eq_decide]
    refine ⟨fun h => h.elim id fun hl => ?_, Or.inl⟩
    rintro ⟨k, hk, -⟩
    have := ((mem_places vocab sentence _ _).1 (List.mem_of_getElem? hk)).2
    omega

/-! ### Example -/

/-- `"a"`, `"b"` and the better `"ab"`. -/
def dropVocab : List (ScoredToken Int) := [⟨[97], -2, false⟩, ⟨[98], -2, false⟩, ⟨[97, 98], -1, false⟩]

/-- The hypotheses of C88 can be met: a dropout of 1, and draws of 0 and 2. -/
example : ScoreLaws Int (fun _ => True) (fun _ => True) ∧ le (1 : Int) zero = false ∧
    ∀ (c : Nat → Bool) k, lt (1 : Int) (if c k then 0 else 2) = !c k := by
  refine ⟨int_laws, by decide, fun c k => ?_⟩
  cases c k <;> decide

/-- `"ab"` is the token `"ab"` with chance `1 - p` and otherwise the two tokens `"a"` and `"b"` (one coin is enough). -/
example (p : ℝ) :
    chance p 1 (fun c => (Model.from_ dropVocab).encode ['a', 'b'] 1 (fun k => if c k then 0 else 2) = .ok [2]) = 1 - p ∧
    chance p 1 (fun c => (Model.from_ dropVocab).encode ['a', 'b'] 1 (fun k => if c k then 0 else 2) = .ok [0, 1]) = p := by
  have h1 : (Model.from_ dropVocab).encode ['a', 'b'] 1
      (fun k => if (k.casesOn true (fun _ => false) : Bool) then 0 else 2) = .ok [0, 1] := by decide +kernel
  have h2 : (Model.from_ dropVocab).encode ['a', 'b'] 1
      (fun k => if (k.casesOn false (fun _ => false) : Bool) then 0 else 2) = .ok [2] := by decide +kernel
  constructor
  · simp only [chance, mean, h1, h2]
    simp
  · simp only [chance, mean, h1, h2]
    simp

/-- The one place of a token of several bytes. -/
example : Occurs dropVocab (enc ['a', 'b']) 0 2 ∧
    BestWithout dropVocab (fun i j => (i, j) = (0, 2)) (enc ['a', 'b']) (.ok [0, 1]) := by
  refine ⟨⟨by decide, by decide +kernel, ⟨[97, 98], -1, false⟩, by simp [dropVocab], by decide +kernel⟩, ?_⟩
  have h := Model.bestWithout_best int_laws dropVocab (fun _ _ => trivial) (enc ['a', 'b']) (fun i j => (i, j) = (0, 2))
    (by rintro i j h; obtain ⟨rfl, rfl⟩ := Prod.mk.inj h; decide)
  have : Model.bestWithout dropVocab (enc ['a', 'b']) (fun i j => (i, j) = (0, 2)) = .ok [0, 1] := by
    unfold Model.bestWithout
    have e : (fun i j => @decide ((i, j) = (0, 2)) (Classical.propDecidable _)) = fun i j : Nat => decide (i = 0 ∧ j = 2) := by
      funext i j
      rw [decide_eq_decide]
      exact Prod.mk_inj
    rw [e]
    decide +kernel
  rwa [this] at h

end Tokengeex

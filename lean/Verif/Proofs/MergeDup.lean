import Verif.Proofs.Merge2
import Verif.Proofs.NBest2
import Verif.Props.Lattice
/-
Merging with exact, unscaled scores creates no duplicates.
-/
namespace Tokengeex
open Spec ScoreOps
variable {F : Type}

theorem spells_nil {v : List (ScoredToken F)} {bs : List UInt8} : Spells v [] bs ↔ bs = [] := by
  unfold Spells
  constructor
  · rintro ⟨toks, h1, h2⟩
    cases toks with
    | nil => simpa using h2.symm
    | cons t ts => simp at h1
  · rintro rfl
    exact ⟨[], rfl, rfl⟩

theorem spells_cons {v : List (ScoredToken F)} {i : Nat} {ids : List Nat} {bs : List UInt8} :
    Spells v (i :: ids) bs ↔ ∃ t rest, v[i]? = some t ∧ Spells v ids rest ∧ bs = t.value ++ rest := by
  unfold Spells
  constructor
  · rintro ⟨toks, h1, h2⟩
    cases toks with
    | nil => simp at h1
    | cons t ts =>
      simp only [List.map_cons, List.cons.injEq] at h1
      exact ⟨t, _, h1.1, ⟨ts, h1.2, rfl⟩, by simp [← h2]⟩
  · rintro ⟨t, rest, h1, ⟨ts, h2, h3⟩, rfl⟩
    exact ⟨t :: ts, by simp [h1, h2], by simp [h3]⟩

theorem spells_append {v : List (ScoredToken F)} {a b : List Nat} {bs : List UInt8} :
    Spells v (a ++ b) bs ↔ ∃ x y, Spells v a x ∧ Spells v b y ∧ bs = x ++ y := by
  induction a generalizing bs with
  | nil =>
    simp only [List.nil_append]
    constructor
    · intro h; exact ⟨[], bs, spells_nil.2 rfl, h, rfl⟩
    · rintro ⟨x, y, h1, h2, rfl⟩
      rw [spells_nil] at h1
      subst h1
      simpa using h2
  | cons i a ih =>
    rw [List.cons_append, spells_cons]
    constructor
    · rintro ⟨t, rest, h1, h2, rfl⟩
      obtain ⟨x, y, h3, h4, rfl⟩ := ih.1 h2
      exact ⟨t.value ++ x, y, spells_cons.2 ⟨t, x, h1, h3, rfl⟩, h4, by simp⟩
    · rintro ⟨x, y, h1, h2, rfl⟩
      obtain ⟨t, rest, h3, h4, rfl⟩ := spells_cons.1 h1
      exact ⟨t, rest ++ y, h3, ih.2 ⟨rest, y, h4, h2, rfl⟩, by simp⟩

theorem spells_one {v : List (ScoredToken F)} {i : Nat} {t : ScoredToken F} (h : v[i]? = some t) :
    Spells v [i] t.value := spells_cons.2 ⟨t, [], h, spells_nil.2 rfl, by simp⟩

theorem spells_two {v : List (ScoredToken F)} {i j : Nat} {t u : ScoredToken F} (h : v[i]? = some t) (h' : v[j]? = some u) :
    Spells v [i, j] (t.value ++ u.value) := spells_cons.2 ⟨t, _, h, spells_one h', rfl⟩

variable [ScoreOps F]

theorem exact_foldl (R : ExactArith F) (l : List F) (x : F) : R.val (l.foldl add x) = R.val x + (l.map R.val).sum := by
  induction l generalizing x with
  | nil => simp
  | cons a l ih => rw [List.foldl_cons, ih, R.add, List.map_cons, List.sum_cons]; ring

theorem exact_total (R : ExactArith F) (v : List (ScoredToken F)) (ids : List Nat) :
    R.val (totalScore v ids) = (ids.map fun i => R.val (scoreOf v i)).sum := by
  unfold totalScore
  rw [exact_foldl, R.zero, List.map_map]
  simp [Function.comp_def]

theorem exact_lt_false (R : ExactArith F) (a b : F) : lt a b = false ↔ R.val b ≤ R.val a := by
  have := R.lt a b
  cases h : lt a b with
  | true => rw [h] at this; simp at this; simp; exact this
  | false => rw [h] at this; simp at this; simp; exact this

theorem scoreOf_some {v : List (ScoredToken F)} {i : Nat} {t : ScoredToken F} (h : v[i]? = some t) :
    scoreOf v i = t.score := by unfold scoreOf; rw [h]

omit [ScoreOps F] in
theorem canonical_of_nodup {v : List (ScoredToken F)} (hnd : NoDuplicates v) (hne : ∀ t ∈ v, t.value ≠ []) {ids : List Nat}
    {bs : List UInt8} (h : Spells v ids bs) : Canonical v ids := by
  intro i hi
  obtain ⟨toks, e1, _⟩ := h
  have : (fun j => v[j]?) i ∈ ids.map (fun j => v[j]?) := List.mem_map_of_mem hi
  rw [e1] at this
  obtain ⟨t, _, ht⟩ := List.mem_map.1 this
  exact ⟨t.value, hne t (List.mem_of_getElem? ht.symm), lastIndex_of_nodup hnd ht.symm⟩

namespace Merger

/-- The invariant: no duplicates, no empty token, and no way of composing a token out of tokens beats the token. -/
structure Good (R : ExactArith F) (v : List (ScoredToken F)) : Prop where
  nodup : NoDuplicates v
  nonempty : ∀ t ∈ v, t.value ≠ []
  best : ∀ t ∈ v, ∀ ids, Spells v ids t.value → R.val (totalScore v ids) ≤ R.val t.score

/-- Replaces the id of the new token by the pair. -/
def expand (n : Nat) (p : Nat × Nat) (ids : List Nat) : List Nat := ids.flatMap fun i => if i = n then [p.1, p.2] else [i]

variable [Mul F]

theorem expand_spec (R : ExactArith F) {c : Merger F} (hscale : ∀ x, R.val (x * c.scaleFactor) = R.val x)
    {v : List (ScoredToken F)} {p : Nat × Nat} {t : ScoredToken F} (hp : MergeOf c v p t) {ids : List Nat} :
    ∀ {bs : List UInt8}, Spells (v ++ [t]) ids bs → Spells v (expand v.length p ids) bs ∧
      R.val (totalScore v (expand v.length p ids)) = R.val (totalScore (v ++ [t]) ids) := by
  obtain ⟨a, b, ha, hb, hv, hs, _, _⟩ := hp
  induction ids with
  | nil => intro bs h; rw [spells_nil] at h; subst h; exact ⟨spells_nil.2 rfl, rfl⟩
  | cons i ids ih =>
    intro bs h
    obtain ⟨u, rest, h1, h2, rfl⟩ := spells_cons.1 h
    obtain ⟨e1, e2⟩ := ih h2
    rw [exact_total, exact_total] at e2
    have hex : expand v.length p (i :: ids) = (if i = v.length then [p.1, p.2] else [i]) ++ expand v.length p ids := rfl
    rw [exact_total, exact_total, hex]
    by_cases hi : i = v.length
    · rw [if_pos hi]
      subst hi
      have hu : u = t := by
        rw [List.getElem?_append_right (Nat.le_refl _)] at h1
        simpa using h1.symm
      subst hu
      constructor
      · exact spells_append.2 ⟨_, _, spells_two ha hb, e1, by rw [hv]⟩
      · rw [List.map_append, List.sum_append, e2]
        simp only [List.map_cons, List.map_nil, List.sum_cons, List.sum_nil, scoreOf_some ha, scoreOf_some hb,
          scoreOf_some h1, hs, hscale, R.add]
        ring
    · rw [if_neg hi]
      have hlt : i < v.length := by
        have := (List.getElem?_eq_some_iff.1 h1).1
        rw [List.length_append] at this
        simp at this
        omega
      rw [List.getElem?_append_left hlt] at h1
      constructor
      · exact spells_append.2 ⟨_, _, spells_one h1, e1, rfl⟩
      · have h1' : (v ++ [t])[i]? = some u := by rw [List.getElem?_append_left hlt]; exact h1
        rw [List.map_append, List.sum_append, e2]
        simp only [List.map_cons, List.map_nil, List.sum_cons, List.sum_nil, scoreOf_some h1, scoreOf_some h1']
        ring

/-- Two neighbours of a best segmentation: no way of composing their bytes beats them, one that ends with a longer token
scores less, and no token has these bytes. -/
theorem Good.pair (R : ExactArith F) {c : Merger F} (hscale : ∀ x, R.val (x * c.scaleFactor) = R.val x)
    (hz : le (zero : F) zero = true) {v : List (ScoredToken F)} (hg : Good R v) {p : Nat × Nat} {t : ScoredToken F}
    (hp : MergeOf c v p t) {s : Str} {rnd : Nat → F} {ids : List Nat} (he : (Model.from_ v).encode s zero rnd = .ok ids)
    (hadj : p ∈ adjacent ids) :
    (∀ seg, Spells v seg t.value → R.val (totalScore v seg) ≤ R.val t.score) ∧
    (∀ seg j, Spells v (seg ++ [j]) t.value → lenOf v p.2 < lenOf v j →
      R.val (totalScore v (seg ++ [j])) < R.val t.score) ∧
    t.value ∉ v.map (·.value) := by
  obtain ⟨pre, post, rfl⟩ := mem_adjacent_lt hadj
  obtain ⟨bs, rest, _, hbest⟩ := (C61_ties (fun _ => True) (fun _ => True) (exact_laws R) v (fun _ _ => trivial) s zero rnd hz _ he).1
    (pre ++ [p.1, p.2]) post (by simp)
  obtain ⟨hsp, _, hopt⟩ := hbest
  obtain ⟨a, b, ha, hb, hv, hs, _, _⟩ := hp
  have hane : a.value ≠ [] := hg.nonempty a (List.mem_of_getElem? ha)
  -- the pair is a best segmentation of its bytes
  obtain ⟨x, y, hx, hy, rfl⟩ := spells_append.1 hsp
  have hy' : y = t.value := by
    obtain ⟨a', r1, h1, h2, rfl⟩ := spells_cons.1 hy
    obtain ⟨b', r2, h3, h4, rfl⟩ := spells_cons.1 h2
    rw [spells_nil] at h4
    subst h4
    rw [ha] at h1; rw [hb] at h3
    simp only [Option.some.injEq] at h1 h3
    subst h1; subst h3
    simp [hv]
  subst hy'
  have hsplit : ∀ seg, R.val (totalScore v (pre ++ seg)) =
      (pre.map fun i => R.val (scoreOf v i)).sum + R.val (totalScore v seg) := by
    intro seg
    rw [exact_total, exact_total, List.map_append, List.sum_append]
  have hpair : R.val (totalScore v [p.1, p.2]) = R.val t.score := by
    rw [exact_total, hs, hscale, R.add]
    simp [scoreOf_some ha, scoreOf_some hb]
  have hT : ∀ seg j, Spells v (seg ++ [j]) t.value → lenOf v p.2 < lenOf v j →
      R.val (totalScore v (seg ++ [j])) < R.val t.score := by
    intro seg j hseg hlen
    have hsp' : Spells v (pre ++ (seg ++ [j])) (x ++ t.value) := spells_append.2 ⟨x, _, hx, hseg, rfl⟩
    have h1 := (hopt _ hsp' (canonical_of_nodup hg.nodup hg.nonempty hsp')).2 p.2 j (by simp) (by simp) hlen
    rw [R.lt, hsplit, hsplit, hpair] at h1
    linarith
  refine ⟨?_, hT, ?_⟩
  · intro seg hseg
    have hsp' : Spells v (pre ++ seg) (x ++ t.value) := spells_append.2 ⟨x, _, hx, hseg, rfl⟩
    have := (hopt _ hsp' (canonical_of_nodup hg.nodup hg.nonempty hsp')).1
    rw [exact_lt_false R, hsplit, hsplit, hpair] at this
    linarith
  · intro hin
    obtain ⟨k, hk, hkv⟩ := List.mem_map.1 hin
    obtain ⟨j, hj⟩ := List.getElem?_of_mem hk
    have h1 := hT [] j (by rw [← hkv]; exact spells_one hj) (by
      unfold lenOf
      rw [hb, hj]
      simp only [hkv, hv, List.length_append]
      have := List.length_pos_iff.2 hane
      omega)
    have h2 := hg.best k hk [p.1, p.2] (by rw [hkv, hv]; exact spells_two ha hb)
    rw [hpair] at h2
    have h3 : R.val (totalScore v ([] ++ [j])) = R.val k.score := by rw [exact_total]; simp [scoreOf_some hj]
    rw [h3] at h1
    linarith

/-- Adding an exactly scored concatenation that no composition beats keeps the invariant. -/
theorem Good.snoc (R : ExactArith F) {c : Merger F} (hscale : ∀ x, R.val (x * c.scaleFactor) = R.val x)
    {v : List (ScoredToken F)} (hg : Good R v) {p : Nat × Nat} {t : ScoredToken F} (hp : MergeOf c v p t)
    (hA : ∀ seg, Spells v seg t.value → R.val (totalScore v seg) ≤ R.val t.score) (hB : t.value ∉ v.map (·.value)) :
    Good R (v ++ [t]) := by
  obtain ⟨a, b, ha, hb, hv, hs, _, _⟩ := id hp
  have hane : a.value ≠ [] := hg.nonempty a (List.mem_of_getElem? ha)
  refine ⟨?_, ?_, ?_⟩
  · unfold NoDuplicates
    rw [List.map_append, List.nodup_append]
    refine ⟨hg.nodup, by simp, ?_⟩
    intro u hu w hw
    simp only [List.map_cons, List.map_nil, List.mem_singleton] at hw
    subst hw
    rintro rfl
    exact hB hu
  · intro u hu
    rcases List.mem_append.1 hu with hu | hu
    · exact hg.nonempty u hu
    · simp only [List.mem_singleton] at hu
      subst hu
      rw [hv]
      simp [hane]
  · intro u hu seg hseg
    obtain ⟨e1, e2⟩ := expand_spec R hscale hp hseg
    rw [← e2]
    rcases List.mem_append.1 hu with hu | hu
    · exact hg.best u hu _ e1
    · simp only [List.mem_singleton] at hu
      subst hu
      exact hA _ e1

theorem mergeOf_append {c : Merger F} {v w : List (ScoredToken F)} {p : Nat × Nat} {t : ScoredToken F}
    (h : MergeOf c v p t) : MergeOf c (v ++ w) p t := by
  obtain ⟨a, b, h1, h2, h3⟩ := h
  refine ⟨a, b, ?_, ?_, h3⟩
  · rw [List.getElem?_append_left (List.getElem?_eq_some_iff.1 h1).1]; exact h1
  · rw [List.getElem?_append_left (List.getElem?_eq_some_iff.1 h2).1]; exact h2

theorem Good.snocs (R : ExactArith F) {c : Merger F} (hscale : ∀ x, R.val (x * c.scaleFactor) = R.val x)
    {pairs : List (Nat × Nat)} {added : List (ScoredToken F)} : ∀ {v : List (ScoredToken F)}, Good R v →
    List.Forall₂ (MergeOf c v) pairs added →
    (∀ t ∈ added, ∀ seg, Spells v seg t.value → R.val (totalScore v seg) ≤ R.val t.score) →
    (∀ t ∈ added, t.value ∉ v.map (·.value)) → (added.map (·.value)).Nodup → Good R (v ++ added) := by
  induction added generalizing pairs with
  | nil => intro v hg _ _ _ _; simpa using hg
  | cons t ts ih =>
    intro v hg hp hA hB hnd
    cases hp with
    | @cons p _ ps _ hp hps =>
      rw [List.map_cons, List.nodup_cons] at hnd
      have hg' := hg.snoc R hscale hp (hA t (by simp)) (hB t (by simp))
      have := ih hg' (hps.imp fun _ _ h => mergeOf_append h)
        (fun u hu seg hseg => by
          obtain ⟨e1, e2⟩ := expand_spec R hscale hp hseg
          rw [← e2]
          exact hA u (by simp [hu]) _ e1)
        (fun u hu hin => by
          rw [List.map_append, List.mem_append] at hin
          rcases hin with hin | hin
          · exact hB u (by simp [hu]) hin
          · simp only [List.map_cons, List.map_nil, List.mem_singleton] at hin
            exact hnd.1 (hin ▸ List.mem_map_of_mem hu))
        hnd.2
      simpa using this

/-- Two pairs of neighbours of best segmentations with the same bytes are the same pair. -/
theorem Good.pair_unique (R : ExactArith F) {v : List (ScoredToken F)} (hg : Good R v) {c : Merger F} {p q : Nat × Nat}
    {t u : ScoredToken F} (hp : MergeOf c v p t) (hq : MergeOf c v q u) (htu : t.value = u.value)
    (hscale : ∀ x, R.val (x * c.scaleFactor) = R.val x)
    (hpA : ∀ seg, Spells v seg t.value → R.val (totalScore v seg) ≤ R.val t.score)
    (hpT : ∀ seg j, Spells v (seg ++ [j]) t.value → lenOf v p.2 < lenOf v j →
      R.val (totalScore v (seg ++ [j])) < R.val t.score)
    (hqA : ∀ seg, Spells v seg u.value → R.val (totalScore v seg) ≤ R.val u.score)
    (hqT : ∀ seg j, Spells v (seg ++ [j]) u.value → lenOf v q.2 < lenOf v j →
      R.val (totalScore v (seg ++ [j])) < R.val u.score) : p = q := by
  have tot : ∀ {p : Nat × Nat} {t : ScoredToken F}, MergeOf c v p t →
      R.val (totalScore v ([p.1] ++ [p.2])) = R.val t.score ∧ Spells v ([p.1] ++ [p.2]) t.value := by
    rintro p t ⟨a, b, ha, hb, hv, hs, _, _⟩
    refine ⟨?_, ?_⟩
    · rw [exact_total, hs, hscale, R.add]
      simp [scoreOf_some ha, scoreOf_some hb]
    · rw [hv]; exact spells_two ha hb
  obtain ⟨tp, sp⟩ := tot hp
  obtain ⟨tq, sq⟩ := tot hq
  have h1 := hpA _ (htu ▸ sq)
  have h2 := hqA _ (htu ▸ sp)
  rw [tq] at h1
  rw [tp] at h2
  have hlen : lenOf v p.2 = lenOf v q.2 := by
    rcases Nat.lt_trichotomy (lenOf v p.2) (lenOf v q.2) with h | h | h
    · have := hpT _ _ (htu ▸ sq) h
      rw [tq] at this
      linarith
    · exact h
    · have := hqT _ _ (htu ▸ sp) h
      rw [tp] at this
      linarith
  obtain ⟨a, b, ha, hb, hv, _⟩ := hp
  obtain ⟨a', b', ha', hb', hv', _⟩ := hq
  unfold lenOf at hlen
  rw [hb, hb'] at hlen
  rw [hv, hv'] at htu
  obtain ⟨e1, e2⟩ := List.append_inj' htu hlen
  have inj : ∀ {i j : Nat} {x y : ScoredToken F}, v[i]? = some x → v[j]? = some y → x.value = y.value → i = j := by
    intro i j x y hi hj hxy
    obtain ⟨hi', e1⟩ := List.getElem?_eq_some_iff.1 hi
    obtain ⟨hj', e2⟩ := List.getElem?_eq_some_iff.1 hj
    refine (List.Nodup.getElem_inj_iff hg.nodup (hi := by simpa using hi') (hj := by simpa using hj')).1 ?_
    simp only [List.getElem_map, e1, e2, hxy]
  exact Prod.ext (inj ha ha' e1) (inj hb hb' e2)

theorem Good.round (R : ExactArith F) {c : Merger F} (hscale : ∀ x, R.val (x * c.scaleFactor) = R.val x)
    (hz : le (zero : F) zero = true) {v added : List (ScoredToken F)} (hg : Good R v) {rnd : Nat → F} {samples : List Str}
    {limit : Nat} (h : Round c rnd samples limit v added) : Good R (v ++ added) := by
  obtain ⟨idss, pairs, h1, h2, h3, h4, _⟩ := h
  have facts : ∀ p ∈ pairs, ∀ t, MergeOf c v p t →
      (∀ seg, Spells v seg t.value → R.val (totalScore v seg) ≤ R.val t.score) ∧
      (∀ seg j, Spells v (seg ++ [j]) t.value → lenOf v p.2 < lenOf v j →
        R.val (totalScore v (seg ++ [j])) < R.val t.score) ∧
      t.value ∉ v.map (·.value) := by
    intro p hp t ht
    obtain ⟨ids, hi, ha⟩ := pairCount_pos (h4 p hp)
    obtain ⟨s, _, hs⟩ := encodedAs_mem h1 ids hi
    exact hg.pair R hscale hz ht hs ha
  have back : ∀ t ∈ added, ∃ p ∈ pairs, MergeOf c v p t := by
    intro t ht
    obtain ⟨i, hi, rfl⟩ := List.getElem_of_mem ht
    exact ⟨pairs[i]'(by rw [h2.length_eq]; exact hi), List.getElem_mem _, h2.get _ hi⟩
  refine hg.snocs R hscale h2 ?_ ?_ ?_
  · intro t ht
    obtain ⟨p, hp, hm⟩ := back t ht
    exact (facts p hp t hm).1
  · intro t ht
    obtain ⟨p, hp, hm⟩ := back t ht
    exact (facts p hp t hm).2.2
  · rw [List.nodup_iff_injective_getElem]
    rintro ⟨i, hi⟩ ⟨j, hj⟩ hij
    simp only [List.length_map] at hi hj
    simp only [List.getElem_map] at hij
    have hi' : i < pairs.length := by rw [h2.length_eq]; exact hi
    have hj' : j < pairs.length := by rw [h2.length_eq]; exact hj
    have mi := h2.get hi' hi
    have mj := h2.get hj' hj
    simp only [List.get_eq_getElem] at mi mj
    obtain ⟨a1, a2, _⟩ := facts _ (List.getElem_mem hi') _ mi
    obtain ⟨b1, b2, _⟩ := facts _ (List.getElem_mem hj') _ mj
    have := hg.pair_unique R mi mj hij hscale a1 a2 b1 b2
    have := (List.Nodup.getElem_inj_iff h3).1 this
    simp [this]

theorem Good.rounds (R : ExactArith F) {c : Merger F} (hscale : ∀ x, R.val (x * c.scaleFactor) = R.val x)
    (hz : le (zero : F) zero = true) {rnd : Nat → F} {samples : List Str} {start : Nat}
    {v w : List (ScoredToken F)} (hg : Good R v) (h : Rounds c rnd samples start v w) : Good R w := by
  induction h with
  | refl => exact hg
  | tail _ hr ih => exact ih.round R hscale hz hr

end Merger
end Tokengeex

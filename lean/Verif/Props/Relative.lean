import Verif.Props.Locality
import Verif.Props.NBest
/-
C109: an encoding depends on nothing but which segmentations have larger scores.
-/
namespace Tokengeex
open Spec ScoreOps
variable {F G : Type}

theorem relative_get {v : List (ScoredToken F)} {w : List (ScoredToken G)} (h : v.map (·.value) = w.map (·.value)) (i : Nat) :
    (v[i]?).map (·.value) = (w[i]?).map (·.value) := by
  rw [← List.getElem?_map, ← List.getElem?_map, h]

theorem relative_spells {v : List (ScoredToken F)} {w : List (ScoredToken G)} (h : v.map (·.value) = w.map (·.value))
    {ids : List Nat} : ∀ {bs : List UInt8}, Spells v ids bs → Spells w ids bs := by
  induction ids with
  | nil => intro bs hs; exact spells_nil.2 (spells_nil.1 hs)
  | cons i ids ih =>
    intro bs hs
    obtain ⟨t, r, h1, h2, rfl⟩ := spells_cons.1 hs
    have := relative_get h i
    rw [h1] at this
    obtain ⟨t', h3, h4⟩ := Option.map_eq_some_iff.1 this.symm
    exact spells_cons.2 ⟨t', r, h3, ih h2, by rw [h4]⟩

theorem relative_canonical {v : List (ScoredToken F)} {w : List (ScoredToken G)} (h : v.map (·.value) = w.map (·.value))
    {ids : List Nat} (hc : Canonical v ids) : Canonical w ids := by
  intro i hi
  obtain ⟨x, hx, ⟨t, h1, h2⟩, h3⟩ := hc i hi
  have := relative_get h i
  rw [h1] at this
  obtain ⟨t', h4, h5⟩ := Option.map_eq_some_iff.1 this.symm
  refine ⟨x, hx, ⟨t', h4, h5.trans h2⟩, ?_⟩
  intro j u hj hu
  have := relative_get h j
  rw [hu] at this
  obtain ⟨u', h6, h7⟩ := Option.map_eq_some_iff.1 this
  rw [show u.value = u'.value from h7.symm]
  exact h3 j u' hj h6

theorem relative_len {v : List (ScoredToken F)} {w : List (ScoredToken G)} (h : v.map (·.value) = w.map (·.value)) (i : Nat) :
    lenOf v i = lenOf w i := by
  have := relative_get h i
  unfold lenOf
  cases hv : v[i]? with
  | none =>
    rw [hv] at this
    rw [Option.map_eq_none_iff.1 this.symm]
  | some t =>
    rw [hv] at this
    obtain ⟨t', h4, h5⟩ := Option.map_eq_some_iff.1 this.symm
    rw [h4]
    simp only [h5]

variable [ScoreOps F] [ScoreOps G]

/-- **C109** (order) Let two vocabularies have the same tokens, with any scores, even in different kinds of arithmetic.  If they
agree which of any two segmentations of the same initial part of a text has the larger total score, they encode the text alike. -/
theorem C109_order (good tok : F → Prop) (laws : ScoreLaws F good tok) (good' tok' : G → Prop) (laws' : ScoreLaws G good' tok')
    (v : List (ScoredToken F)) (w : List (ScoredToken G)) (hv : ∀ t ∈ v, tok t.score) (hw : ∀ t ∈ w, tok' t.score)
    (htok : v.map (·.value) = w.map (·.value))
    (s : Str) (dropout : F) (dropout' : G) (rnd : Nat → F) (rnd' : Nat → G) (hd : le dropout zero = true)
    (hd' : le dropout' zero = true)
    (horder : ∀ bs a b, bs <+: enc s → Spells v a bs → Canonical v a → Spells v b bs → Canonical v b →
      (lt (totalScore v a) (totalScore v b) = lt (totalScore w a) (totalScore w b))) :
    (Model.from_ v).encode s dropout rnd = (Model.from_ w).encode s dropout' rnd' := by
  rcases C03_encode_outcomes v s dropout rnd with ⟨ids, h⟩ | h
  · rw [h]
    have hs := (C01_encode_lossless v s dropout rnd ids h).2
    have hc : Canonical v ids := fun i hi => by
      obtain ⟨x, h1, h2, _⟩ := C07_encode_canonical v s dropout rnd ids h i hi
      exact ⟨x, h1, h2⟩
    symm
    refine encode_of_best laws' hw hd' (relative_spells htok hs) (relative_canonical htok hc) ?_
    intro pre suf e
    obtain ⟨bs, rest, h1, h2, h3, h4⟩ := (C61_ties good tok laws v hv s dropout rnd hd ids h).1 pre suf e
    refine ⟨bs, rest, h1, relative_spells htok h2, relative_canonical htok h3, ?_⟩
    intro other ho hoc
    have ho' := relative_spells htok.symm ho
    have hoc' := relative_canonical htok.symm hoc
    have hbs : bs <+: enc s := ⟨rest, h1.symm⟩
    obtain ⟨h5, h6⟩ := h4 other ho' hoc'
    refine ⟨by rw [← horder bs pre other hbs h2 h3 ho' hoc']; exact h5, ?_⟩
    intro i j hi hj hl
    rw [← horder bs other pre hbs ho' hoc' h2 h3]
    exact h6 i j hi hj (by rw [relative_len htok, relative_len htok]; exact hl)
  · rw [h]
    have : ¬ Segmentable w (enc s) := by
      rintro ⟨ps, h1, h2⟩
      have : Segmentable v (enc s) := by
        refine ⟨ps, h1, ?_⟩
        intro p hp
        obtain ⟨h3, t, h4, h5⟩ := h2 p hp
        have : p ∈ v.map (·.value) := by rw [htok]; exact List.mem_map.2 ⟨t, h4, h5⟩
        obtain ⟨t', h6, h7⟩ := List.mem_map.1 this
        exact ⟨h3, t', h6, h7⟩
      obtain ⟨ids, h6⟩ := ((C03_encode_complete v s dropout rnd hd).1).2 this
      rw [h] at h6
      simp at h6
    exact ((C03_encode_complete w s dropout' rnd' hd').2 this).symm

/-- **C109** (scaling) In exact arithmetic, multiplying all scores by a positive number and adding a fixed amount per byte of a token
changes no encoding. -/
theorem C109_scale (R : ExactArith F) (S : ExactArith G) (c d : ℝ) (hc : 0 < c) (v : List (ScoredToken F))
    (w : List (ScoredToken G)) (htok : v.map (·.value) = w.map (·.value))
    (hscore : ∀ (i : Nat) t u, v[i]? = some t → w[i]? = some u → S.val u.score = c * R.val t.score + d * (t.value.length : ℝ))
    (s : Str) (dropout : F) (dropout' : G) (rnd : Nat → F) (rnd' : Nat → G) (hd : le dropout zero = true)
    (hd' : le dropout' zero = true) :
    (Model.from_ v).encode s dropout rnd = (Model.from_ w).encode s dropout' rnd' := by
  refine C109_order _ _ (exact_laws R) _ _ (exact_laws S) v w (fun _ _ => trivial) (fun _ _ => trivial) htok s dropout dropout'
    rnd rnd' hd hd' ?_
  have total : ∀ ids bs, Spells v ids bs →
      S.val (totalScore w ids) = c * R.val (totalScore v ids) + d * (bs.length : ℝ) := by
    intro ids
    induction ids with
    | nil => intro bs h; rw [spells_nil.1 h, exact_total, exact_total]; simp
    | cons i ids ih =>
      intro bs h
      obtain ⟨t, r, h1, h2, rfl⟩ := spells_cons.1 h
      have := relative_get htok i
      rw [h1] at this
      obtain ⟨t', h4, h5⟩ := Option.map_eq_some_iff.1 this.symm
      have := ih r h2
      rw [exact_total, exact_total] at this
      rw [exact_total, exact_total, List.map_cons, List.map_cons, List.sum_cons, List.sum_cons, this, scoreOf_some h1,
        scoreOf_some h4, hscore i t t' h1 h4, List.length_append, Nat.cast_add]
      ring
  intro bs a b _ ha _ hb _
  rw [Bool.eq_iff_iff, R.lt, S.lt, total a bs ha, total b bs hb]
  constructor
  · intro h; have := mul_lt_mul_of_pos_left h hc; linarith
  · intro h
    have : c * R.val (totalScore v a) < c * R.val (totalScore v b) := by linarith
    exact lt_of_mul_lt_mul_left this hc.le

/-- The scores of `partVocab` times 2 and minus 5 for every byte. -/
def perByteVocab : List (ScoredToken Int) :=
  [⟨[97], -11, false⟩, ⟨[98], -11, false⟩, ⟨[99], -11, false⟩, ⟨[97, 98], -18, false⟩, ⟨[98, 99], -18, false⟩]

/-- Non-vacuity. -/
example : (Model.from_ partVocab).encode "abcab".toList 0 exRnd = (Model.from_ perByteVocab).encode "abcab".toList 0 exRnd := by
  refine C109_scale intExact intExact 2 (-5) (by norm_num) partVocab perByteVocab rfl ?_ _ 0 0 _ _ (by decide) (by decide)
  intro i t u ht hu
  match i with
  | 0 => cases ht; cases hu; norm_num [intExact]
  | 1 => cases ht; cases hu; norm_num [intExact]
  | 2 => cases ht; cases hu; norm_num [intExact]
  | 3 => cases ht; cases hu; norm_num [intExact]
  | 4 => cases ht; cases hu; norm_num [intExact]
  | i + 5 => exact absurd ht (by simp [partVocab])

end Tokengeex

import Verif.Props.Relative
/-
C110: how an encoding responds to a change of scores.
-/
namespace Tokengeex
open Spec ScoreOps
variable {F : Type} [ScoreOps F]

/-- A larger score gives a total that is not smaller. -/
def AddMonotone (F : Type) [ScoreOps F] (good tok : F → Prop) : Prop :=
  ∀ {a x y : F}, good a → tok x → tok y → lt x y = false → lt (add a x) (add a y) = false

theorem scoreOf_tok {good tok : F → Prop} (laws : ScoreLaws F good tok) {v : List (ScoredToken F)} (hv : ∀ t ∈ v, tok t.score)
    (i : Nat) : tok (scoreOf v i) := by
  unfold scoreOf
  cases h : v[i]? with
  | none => exact laws.zero_tok
  | some t => exact hv t (List.mem_of_getElem? h)

theorem total_good {good tok : F → Prop} (laws : ScoreLaws F good tok) {v : List (ScoredToken F)} (hv : ∀ t ∈ v, tok t.score)
    (ids : List Nat) : good (totalScore v ids) := by
  unfold totalScore
  have : ∀ a, good a → good ((ids.map (scoreOf v)).foldl add a) := by
    induction ids with
    | nil => intro a ha; exact ha
    | cons i ids ih => intro a ha; exact ih _ (laws.add_good ha (scoreOf_tok laws hv i))
  exact this _ laws.zero_good

theorem total_worse {good tok : F → Prop} (laws : ScoreLaws F good tok) (hmono : AddMonotone F good tok) {v w : List (ScoredToken F)}
    (hv : ∀ t ∈ v, tok t.score) (hw : ∀ t ∈ w, tok t.score) (hsc : ∀ i, lt (scoreOf v i) (scoreOf w i) = false) (ids : List Nat) :
    lt (totalScore v ids) (totalScore w ids) = false := by
  unfold totalScore
  have : ∀ a b, good a → good b → lt a b = false →
      lt ((ids.map (scoreOf v)).foldl add a) ((ids.map (scoreOf w)).foldl add b) = false := by
    induction ids with
    | nil => intro a b _ _ h; exact h
    | cons i ids ih =>
      intro a b ha hb h
      have tv := scoreOf_tok laws hv i
      have tw := scoreOf_tok laws hw i
      exact ih _ _ (laws.add_good ha tv) (laws.add_good hb tw)
        (laws.trans (laws.add_good ha tv) (laws.add_good hb tv) (laws.add_good hb tw) (laws.add_mono ha hb tv h) (hmono hb tv tw (hsc i)))
  exact this _ _ laws.zero_good laws.zero_good (laws.irrefl laws.zero_good)

/-- **C110** (worse) Let two vocabularies have the same tokens, and let no score of the second be larger.  A text whose encoding
with the first uses only tokens with unchanged scores has the same encoding with the second. -/
theorem C110_worse (good tok : F → Prop) (laws : ScoreLaws F good tok) (hmono : AddMonotone F good tok) (v w : List (ScoredToken F))
    (hv : ∀ t ∈ v, tok t.score) (hw : ∀ t ∈ w, tok t.score) (htok : v.map (·.value) = w.map (·.value))
    (hscore : ∀ (i : Nat) t u, v[i]? = some t → w[i]? = some u → lt t.score u.score = false)
    (s : Str) (dropout dropout' : F) (rnd rnd' : Nat → F) (hd : le dropout zero = true) (hd' : le dropout' zero = true)
    (ids : List Nat) (h : (Model.from_ v).encode s dropout rnd = .ok ids)
    (hused : ∀ i ∈ ids, (w[i]?).map (·.score) = (v[i]?).map (·.score)) :
    (Model.from_ w).encode s dropout' rnd' = .ok ids := by
  have hs := (C01_encode_lossless v s dropout rnd ids h).2
  have hc : Canonical v ids := fun i hi => by
    obtain ⟨x, h1, h2, _⟩ := C07_encode_canonical v s dropout rnd ids h i hi
    exact ⟨x, h1, h2⟩
  have hsc : ∀ i, lt (scoreOf v i) (scoreOf w i) = false := by
    intro i
    have hg := relative_get htok i
    unfold scoreOf
    cases h1 : v[i]? with
    | none =>
      rw [h1] at hg
      rw [Option.map_eq_none_iff.1 hg.symm]
      exact laws.irrefl laws.zero_good
    | some t =>
      rw [h1] at hg
      obtain ⟨u, h4, _⟩ := Option.map_eq_some_iff.1 hg.symm
      rw [h4]
      exact hscore i t u h1 h4
  have hsame : ∀ pre, (∀ i ∈ pre, i ∈ ids) → totalScore w pre = totalScore v pre := by
    intro pre hp
    unfold totalScore
    congr 1
    refine List.map_congr_left ?_
    intro i hi
    have := hused i (hp i hi)
    unfold scoreOf
    cases h1 : v[i]? with
    | none => rw [h1] at this; rw [Option.map_eq_none_iff.1 this]
    | some t =>
      rw [h1] at this
      obtain ⟨u, h4, h5⟩ := Option.map_eq_some_iff.1 this
      rw [h4]
      exact h5
  refine encode_of_best laws hw hd' (relative_spells htok hs) (relative_canonical htok hc) ?_
  intro pre suf e
  obtain ⟨bs, rest, h1, h2, h3, h4⟩ := (C61_ties good tok laws v hv s dropout rnd hd ids h).1 pre suf e
  refine ⟨bs, rest, h1, relative_spells htok h2, relative_canonical htok h3, ?_⟩
  intro other ho hoc
  obtain ⟨h5, h6⟩ := h4 other (relative_spells htok.symm ho) (relative_canonical htok.symm hoc)
  have e1 := hsame pre (fun i hi => by rw [e]; exact List.mem_append_left _ hi)
  have hworse := total_worse laws hmono hv hw hsc other
  have g1 := total_good laws hv pre
  have g2 := total_good laws hv other
  have g3 := total_good laws hw other
  rw [e1]
  refine ⟨laws.trans g1 g2 g3 h5 hworse, ?_⟩
  intro i j hi hj hl
  have h7 := h6 i j hi hj (by rw [relative_len htok, relative_len htok]; exact hl)
  cases h8 : lt (totalScore w other) (totalScore v pre) with
  | true => rfl
  | false => rw [laws.trans g2 g3 g1 hworse h8] at h7; exact absurd h7 (by simp)

theorem finite_ne_nan {x : F64} (h : Spec.Finite x) : x ≠ F64.nan := by
  rintro rfl
  exact h.elim

theorem F64.addMonotone : AddMonotone F64 F64.Total Spec.Finite := by
  intro a x y ha hx hy h
  have h1 := (F64.lt_false (finite_ne_nan hx) (finite_ne_nan hy)).1 h
  refine (F64.lt_false (F64.total_add ha hx).2 (F64.total_add ha hy).2).2 ?_
  cases x with
  | nan => exact hx.elim
  | inf s => exact hx.elim
  | num s n =>
    cases y with
    | nan => exact hy.elim
    | inf t => exact hy.elim
    | num t m =>
      cases a with
      | nan => exact absurd rfl ha.2
      | inf u => exact Int.le_refl _
      | num u o =>
        show (F64.add (.num u o) (.num t m)).key ≤ (F64.add (.num u o) (.num s n)).key
        rw [F64.key_add, F64.key_add]
        exact F64.keyOfSum_mono (by omega)

/-- **C110** (worse, doubles) With finite double scores: making tokens worse does not change the encoding of a text that does not
use them. -/
theorem C110_worse_doubles (v w : List (ScoredToken F64)) (hv : ∀ t ∈ v, Spec.Finite t.score) (hw : ∀ t ∈ w, Spec.Finite t.score)
    (htok : v.map (·.value) = w.map (·.value))
    (hscore : ∀ (i : Nat) t u, v[i]? = some t → w[i]? = some u → F64.le u.score t.score = true)
    (s : Str) (dropout dropout' : F64) (rnd rnd' : Nat → F64) (hd : F64.le dropout (.num false 0) = true)
    (hd' : F64.le dropout' (.num false 0) = true)
    (ids : List Nat) (h : (Model.from_ v).encode s dropout rnd = .ok ids)
    (hused : ∀ i ∈ ids, (w[i]?).map (·.score) = (v[i]?).map (·.score)) :
    (Model.from_ w).encode s dropout' rnd' = .ok ids := by
  refine C110_worse F64.Total Spec.Finite F64.finiteLaws F64.addMonotone v w hv hw htok ?_ s dropout dropout' rnd rnd' hd hd' ids h hused
  intro i t u ht hu
  have n1 := finite_ne_nan (hv t (List.mem_of_getElem? ht))
  have n2 := finite_ne_nan (hw u (List.mem_of_getElem? hu))
  exact (F64.lt_false n1 n2).2 ((F64.le_true n2 n1).1 (hscore i t u ht hu))

/-- **C110** (better) In exact arithmetic, raising the score of one token never makes an encoding use it fewer times. -/
theorem C110_better (R : ExactArith F) (v w : List (ScoredToken F)) (htok : v.map (·.value) = w.map (·.value))
    (k : Nat) (t u : ScoredToken F) (hk : v[k]? = some t) (hk' : w[k]? = some u) (hbetter : lt t.score u.score = true)
    (hrest : ∀ i, i ≠ k → (w[i]?).map (·.score) = (v[i]?).map (·.score))
    (s : Str) (dropout dropout' : F) (rnd rnd' : Nat → F) (hd : le dropout zero = true) (hd' : le dropout' zero = true)
    (ids ids' : List Nat) (h : (Model.from_ v).encode s dropout rnd = .ok ids)
    (h' : (Model.from_ w).encode s dropout' rnd' = .ok ids') : ids.count k ≤ ids'.count k := by
  have total : ∀ l : List Nat, R.val (totalScore w l) =
      R.val (totalScore v l) + (l.count k : ℝ) * (R.val u.score - R.val t.score) := by
    intro l
    rw [exact_total, exact_total]
    induction l with
    | nil => simp
    | cons i l ih =>
      rw [List.map_cons, List.map_cons, List.sum_cons, List.sum_cons, ih, List.count_cons]
      by_cases e : i = k
      · subst e
        rw [scoreOf_some hk, scoreOf_some hk', if_pos (by simp), Nat.cast_add, Nat.cast_one]
        ring
      · have : scoreOf w i = scoreOf v i := by
          have := hrest i e
          unfold scoreOf
          cases h1 : v[i]? with
          | none => rw [h1] at this; rw [Option.map_eq_none_iff.1 this]
          | some t =>
            rw [h1] at this
            obtain ⟨u, h4, h5⟩ := Option.map_eq_some_iff.1 this
            rw [h4]
            exact h5
        rw [this, if_neg (by simpa using e)]
        simp only [Nat.add_zero]
        ring
  have can : ∀ (x : List (ScoredToken F)) (d : F) (r : Nat → F) (l : List Nat), (Model.from_ x).encode s d r = .ok l →
      Spells x l (enc s) ∧ Canonical x l := fun x d r l hl => ⟨(C01_encode_lossless x s d r l hl).2, fun i hi => by
    obtain ⟨y, h1, h2, _⟩ := C07_encode_canonical x s d r l hl i hi
    exact ⟨y, h1, h2⟩⟩
  obtain ⟨s1, c1⟩ := can v dropout rnd ids h
  obtain ⟨s2, c2⟩ := can w dropout' rnd' ids' h'
  have b1 := C05_encode_optimal _ _ (exact_laws R) v (fun _ _ => trivial) s dropout rnd hd ids h ids'
    (relative_spells htok.symm s2) (relative_canonical htok.symm c2)
  have b2 := C05_encode_optimal _ _ (exact_laws R) w (fun _ _ => trivial) s dropout' rnd' hd' ids' h' ids
    (relative_spells htok s1) (relative_canonical htok c1)
  have b1' : R.val (totalScore v ids') ≤ R.val (totalScore v ids) := by
    by_contra hcon
    rw [(R.lt _ _).2 (not_le.1 hcon)] at b1
    exact absurd b1 (by simp)
  have b2' : R.val (totalScore w ids) ≤ R.val (totalScore w ids') := by
    by_contra hcon
    rw [(R.lt _ _).2 (not_le.1 hcon)] at b2
    exact absurd b2 (by simp)
  rw [total, total] at b2'
  have hpos := (R.lt _ _).1 hbetter
  by_contra hcon
  have h1 : (ids'.count k : ℝ) + 1 ≤ (ids.count k : ℝ) := by exact_mod_cast Nat.not_le.1 hcon
  nlinarith

/-- **C110** (rounding) `C110_better` needs exact arithmetic: with doubles, raising the score of `a` from -(1 + 2⁻⁵⁰) by the
smallest possible amount makes `encode` use it once instead of twice. -/
theorem C110_rounding_false : ¬ ∀ (v w : List (ScoredToken F64)) (k : Nat) (t u : ScoredToken F64) (s : Str) (ids ids' : List Nat),
    (∀ t ∈ v, Spec.Finite t.score) → (∀ t ∈ w, Spec.Finite t.score) → v.map (·.value) = w.map (·.value) →
    v[k]? = some t → w[k]? = some u → F64.lt t.score u.score = true →
    (∀ i, i ≠ k → (w[i]?).map (·.score) = (v[i]?).map (·.score)) →
    (Model.from_ v).encode s (.num false 0) (fun _ => .num false 0) = .ok ids →
    (Model.from_ w).encode s (.num false 0) (fun _ => .num false 0) = .ok ids' → ids.count k ≤ ids'.count k := by
  intro H
  let tokens (a : F64) : List (ScoredToken F64) := [⟨[97], a, false⟩,
    ⟨[98], .num true ((2 ^ 54 - 2 ^ 52 - 2 ^ 51 + 2) * 2 ^ 1022), false⟩, ⟨[97, 98], .num true (2 ^ 51 * 2 ^ 1022), false⟩,
    ⟨[98, 98], .num true (2 ^ 53 * 2 ^ 1022), false⟩]
  have hdouble : ∀ n, n < 2 ^ 53 → Spec.Finite (.num true (n * 2 ^ 1022)) := fun n hn => ⟨n, 1022, hn, by omega, rfl⟩
  have hfin : ∀ a, Spec.Finite a → ∀ t ∈ tokens a, Spec.Finite t.score := by
    intro a ha t ht
    simp only [tokens, List.mem_cons, List.not_mem_nil, or_false] at ht
    rcases ht with rfl | rfl | rfl | rfl
    · exact ha
    · exact ⟨2 ^ 53 - 2 ^ 51 - 2 ^ 50 + 1, 1023, by norm_num, by omega, by decide +kernel⟩
    · exact hdouble (2 ^ 51) (by norm_num)
    · exact ⟨2 ^ 52, 1023, by norm_num, by omega, by decide +kernel⟩
  have hmap : ∀ a b, (tokens a).map (·.value) = (tokens b).map (·.value) := fun _ _ => rfl
  have hget : ∀ a, (tokens a)[0]? = some ⟨[97], a, false⟩ := fun _ => rfl
  have hrest : ∀ a b i, i ≠ 0 → ((tokens b)[i]?).map (·.score) = ((tokens a)[i]?).map (·.score) := by
    intro a b i hi
    match i with
    | 0 => exact absurd rfl hi
    | i + 1 => rfl
  have := H (tokens (.num true ((2 ^ 52 + 4) * 2 ^ 1022))) (tokens (.num true ((2 ^ 52 + 3) * 2 ^ 1022))) 0 _ _ "aabb".toList
    [0, 0, 3] [0, 2, 1] (hfin _ (hdouble (2 ^ 52 + 4) (by norm_num))) (hfin _ (hdouble (2 ^ 52 + 3) (by norm_num)))
    (hmap _ _) (hget _) (hget _) (by decide +kernel) (hrest _ _) (by decide +kernel) (by decide +kernel)
  revert this
  decide

/-! ### Non-vacuity -/

theorem intMonotone : AddMonotone Int (fun _ => True) (fun _ => True) := by
  intro a x y _ _ _ h
  simp only [ScoreOps.lt, ScoreOps.add, decide_eq_false_iff_not] at h ⊢
  omega

/-- `partVocab` with a worse `ab`. -/
def worseVocab : List (ScoredToken Int) :=
  [⟨[97], -3, false⟩, ⟨[98], -3, false⟩, ⟨[99], -3, false⟩, ⟨[97, 98], -5, false⟩, ⟨[98, 99], -4, false⟩]

/-- The hypotheses of C110_worse are met: `"abc"` is encoded as `a`, `bc` with `partVocab`, so also if `ab` is worse. -/
example : (Model.from_ worseVocab).encode "abc".toList 0 exRnd = .ok [0, 4] :=
  C110_worse (fun _ => True) (fun _ => True) (exact_laws intExact) intMonotone partVocab worseVocab (fun _ _ => trivial)
    (fun _ _ => trivial) rfl (by
      intro i t u ht hu
      match i with
      | 0 => cases ht; cases hu; rfl
      | 1 => cases ht; cases hu; rfl
      | 2 => cases ht; cases hu; rfl
      | 3 => cases ht; cases hu; rfl
      | 4 => cases ht; cases hu; rfl
      | i + 5 => exact absurd ht (by simp [partVocab])) _ 0 0 exRnd exRnd (by decide) (by decide) _ (by decide)
    (by decide)

/-- `partVocab` with a better `ab`. -/
def betterVocab : List (ScoredToken Int) :=
  [⟨[97], -3, false⟩, ⟨[98], -3, false⟩, ⟨[99], -3, false⟩, ⟨[97, 98], -2, false⟩, ⟨[98, 99], -4, false⟩]

/-- The hypotheses of C110_better are met, and the number of uses can really grow: `"abcab"` uses `ab` once with `partVocab`, and twice if
its score is -2 instead of -4. -/
example : ∃ ids ids', (Model.from_ partVocab).encode "abcab".toList 0 exRnd = .ok ids ∧
    (Model.from_ betterVocab).encode "abcab".toList 0 exRnd = .ok ids' ∧ ids.count 3 = 1 ∧ ids'.count 3 = 2 ∧
    ids.count 3 ≤ ids'.count 3 := by
  refine ⟨[0, 4, 3], [3, 2, 3], by decide, by decide, by decide, by decide, ?_⟩
  refine C110_better intExact partVocab betterVocab rfl 3 _ _ rfl rfl (by decide) ?_ "abcab".toList 0 0 exRnd exRnd (by decide)
    (by decide) _ _ (by decide) (by decide)
  intro i hi
  match i with
  | 0 => rfl
  | 1 => rfl
  | 2 => rfl
  | 3 => exact absurd rfl hi
  | 4 => rfl
  | i + 5 => rfl

/-- The hypotheses of C110_worse_doubles are met. -/
example : ∃ v w : List (ScoredToken F64), v ≠ w ∧ (Model.from_ v).encode "ab".toList (.num false 0) (fun _ => .nan) = .ok [0, 1] ∧
    (Model.from_ w).encode "ab".toList (.num false 0) (fun _ => .nan) = .ok [0, 1] := by
  let v (x : Nat) : List (ScoredToken F64) := [⟨[97], .num true 1, false⟩, ⟨[98], .num true 1, false⟩, ⟨[97, 98], .num true x, false⟩]
  have hf : ∀ n, n < 2 ^ 53 → Spec.Finite (.num true n) := fun n hn => ⟨n, 0, hn, by omega, by simp⟩
  have hv : ∀ n, n < 2 ^ 53 → ∀ t ∈ v n, Spec.Finite t.score := by
    intro n hn t ht
    simp only [v, List.mem_cons, List.not_mem_nil, or_false] at ht
    rcases ht with rfl | rfl | rfl
    · exact hf 1 (by norm_num)
    · exact hf 1 (by norm_num)
    · exact hf n hn
  refine ⟨v 3, v 4, by decide, by decide +kernel, ?_⟩
  refine C110_worse_doubles (v 3) (v 4) (hv 3 (by norm_num)) (hv 4 (by norm_num)) rfl ?_ _ (.num false 0) (.num false 0) (fun _ => .nan)
    (fun _ => .nan) (by decide) (by decide) _ (by decide +kernel) (by decide)
  intro i t u ht hu
  match i with
  | 0 => cases ht; cases hu; decide +kernel
  | 1 => cases ht; cases hu; decide +kernel
  | 2 => cases ht; cases hu; decide +kernel
  | i + 3 => exact absurd ht (by simp [v])

end Tokengeex

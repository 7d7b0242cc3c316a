import Verif.Props.Filter
import Verif.Props.Float64
import Verif.Proofs.MergeDup
/-
What an encoding depends on: parts of the text (C99), and the tokens it uses (C101).
-/
namespace Tokengeex
open Spec ScoreOps
variable {F : Type} [ScoreOps F]

omit [ScoreOps F] in
theorem spells_unique {v : List (ScoredToken F)} {ids : List Nat} : ∀ {x y : List UInt8}, Spells v ids x → Spells v ids y →
    x = y := by
  induction ids with
  | nil => intro x y hx hy; rw [spells_nil.1 hx, spells_nil.1 hy]
  | cons i ids ih =>
    intro x y hx hy
    obtain ⟨t, r, h1, h2, rfl⟩ := spells_cons.1 hx
    obtain ⟨t', r', h1', h2', rfl⟩ := spells_cons.1 hy
    rw [h1] at h1'
    cases h1'
    rw [ih h2 h2']

omit [ScoreOps F] in
theorem segmentable_of_spells {v : List (ScoredToken F)} {ids : List Nat} {bs : List UInt8} (h : Spells v ids bs)
    (hc : Canonical v ids) : Segmentable v bs := by
  induction ids generalizing bs with
  | nil => exact ⟨[], by rw [spells_nil.1 h]; rfl, by simp⟩
  | cons i ids ih =>
    obtain ⟨t, r, h1, h2, rfl⟩ := spells_cons.1 h
    obtain ⟨ps, h3, h4⟩ := ih h2 fun j hj => hc j (by simp [hj])
    obtain ⟨x, hx, ⟨t', h5, h6⟩, _⟩ := hc i (by simp)
    rw [h1] at h5
    cases h5
    refine ⟨t.value :: ps, by simp [h3], ?_⟩
    intro p hp
    rcases List.mem_cons.1 hp with rfl | hp
    · exact ⟨by rw [h6]; exact hx, t, List.mem_of_getElem? h1, rfl⟩
    · exact h4 p hp

/-- The converse of C61: a segmentation all of whose initial parts are best is what `encode` returns. -/
theorem encode_of_best {good tok : F → Prop} (laws : ScoreLaws F good tok) {vocab : List (ScoredToken F)}
    (hgood : ∀ t ∈ vocab, tok t.score) {s : Str} {dropout : F} {rnd : Nat → F} (hd : le dropout zero = true) {ids : List Nat}
    (hs : Spells vocab ids (enc s)) (hc : Canonical vocab ids)
    (h : ∀ pre suf, ids = pre ++ suf → ∃ bs rest, enc s = bs ++ rest ∧ BestLongestLast vocab bs pre) :
    (Model.from_ vocab).encode s dropout rnd = .ok ids := by
  obtain ⟨ids', h'⟩ := ((C03_encode_complete vocab s dropout rnd hd).1).2 (segmentable_of_spells hs hc)
  rw [h', (C61_ties good tok laws vocab hgood s dropout rnd hd ids' h').2 ids hs hc h]

/-! ## C99 -/

/-- **C99** (prefix) Whenever the first ids of an encoding spell a text by themselves, they are the encoding of that text.
This holds for floating-point scores too (only the weak laws are used). -/
theorem C99_prefix (good tok : F → Prop) (laws : ScoreLaws F good tok)
    (vocab : List (ScoredToken F)) (hgood : ∀ t ∈ vocab, tok t.score) (s : Str) (dropout dropout' : F) (rnd rnd' : Nat → F)
    (hd : le dropout zero = true) (hd' : le dropout' zero = true) (pre suf : List Nat)
    (h : (Model.from_ vocab).encode s dropout rnd = .ok (pre ++ suf)) (u : Str) (hu : Spells vocab pre (enc u)) :
    (Model.from_ vocab).encode u dropout' rnd' = .ok pre := by
  obtain ⟨h1, -⟩ := C61_ties good tok laws vocab hgood s dropout rnd hd _ h
  obtain ⟨_, _, _, hb⟩ := h1 pre suf rfl
  refine encode_of_best laws hgood hd' hu hb.2.1 ?_
  intro p q e
  obtain ⟨bs, rest, _, hp⟩ := h1 p (q ++ suf) (by rw [e, List.append_assoc])
  rw [e] at hu
  obtain ⟨x, y, hx, hy, exy⟩ := spells_append.1 hu
  exact ⟨bs, y, by rw [exy, spells_unique hx hp.1], hp⟩

/-- **C99** (parts) In exact arithmetic the same holds for any consecutive ids of an encoding, not only the first ones. -/
theorem C99_part (R : ExactArith F) (vocab : List (ScoredToken F)) (s : Str) (dropout dropout' : F) (rnd rnd' : Nat → F)
    (hd : le dropout zero = true) (hd' : le dropout' zero = true) (a b c : List Nat)
    (h : (Model.from_ vocab).encode s dropout rnd = .ok (a ++ b ++ c)) (u : Str) (hu : Spells vocab b (enc u)) :
    (Model.from_ vocab).encode u dropout' rnd' = .ok b := by
  have laws := exact_laws R
  obtain ⟨h1, -⟩ := C61_ties _ _ laws vocab (fun _ _ => trivial) s dropout rnd hd _ h
  obtain ⟨_, _, _, hb⟩ := h1 (a ++ b) c rfl
  have total : ∀ x y, R.val (totalScore vocab (x ++ y)) = R.val (totalScore vocab x) + R.val (totalScore vocab y) := by
    intro x y; simp only [exact_total, List.map_append, List.sum_append]
  refine encode_of_best laws (fun _ _ => trivial) hd' hu (fun i hi => hb.2.1 i (by simp [hi])) ?_
  intro p q e
  obtain ⟨bs, rest, _, hp⟩ := h1 (a ++ p) (q ++ c) (by rw [e]; simp)
  obtain ⟨x, y, hx, hy, rfl⟩ := spells_append.1 hp.1
  rw [e] at hu
  obtain ⟨x', y', hx', hy', exy⟩ := spells_append.1 hu
  have e' := spells_unique hx' hy
  subst e'
  refine ⟨x', y', exy, hy, fun i hi => hp.2.1 i (by simp [hi]), ?_⟩
  intro other ho hoc
  obtain ⟨h2, h3⟩ := hp.2.2 (a ++ other) (spells_append.2 ⟨x, x', hx, ho, rfl⟩) (by
    intro i hi
    rcases List.mem_append.1 hi with hi | hi
    · exact hp.2.1 i (by simp [hi])
    · exact hoc i hi)
  rw [exact_lt_false, total, total] at h2
  refine ⟨by rw [exact_lt_false]; linarith, ?_⟩
  intro i j hi hj hl
  have := h3 i j (by rw [List.getLast?_append, hi]; rfl) (by rw [List.getLast?_append, hj]; rfl) hl
  rw [R.lt, total, total] at this
  rw [R.lt]; linarith

/-- Non-vacuity: the encoding of `"abcab"` has a boundary after every token, and `"ab"` at the end is encoded as by itself. -/
def partVocab : List (ScoredToken Int) :=
  [⟨[97], -3, false⟩, ⟨[98], -3, false⟩, ⟨[99], -3, false⟩, ⟨[97, 98], -4, false⟩, ⟨[98, 99], -4, false⟩]
example : (Model.from_ partVocab).encode "abcab".toList 0 exRnd = .ok ([0, 4] ++ [3] ++ []) ∧
    Spells partVocab [3] (enc "ab".toList) ∧ (Model.from_ partVocab).encode "ab".toList 0 exRnd = .ok [3] :=
  ⟨by decide, spells_one (t := ⟨[97, 98], -4, false⟩) (by decide), by decide⟩

/-- With doubles, the tokens `x`, `a`, `b` and `ab` with the scores -2^60, 0, 0 and -1. -/
def absorbed : List (ScoredToken F64) :=
  [⟨[120], .num true (2 ^ 1134), false⟩, ⟨[97], .num false 0, false⟩, ⟨[98], .num false 0, false⟩,
    ⟨[97, 98], .num true (2 ^ 1074), false⟩]

/-- **C99** (what does not hold) With doubles, consecutive ids that are not the first ones need not be the encoding of what they
spell: after a token with a very low score, small differences are rounded away. -/
theorem C99_part_false : (∀ t ∈ absorbed, Finite t.score) ∧
    (Model.from_ absorbed).encode "xab".toList (.num false 0) (fun _ => .num false 0) = .ok ([0] ++ [3] ++ []) ∧
    Spells absorbed [3] (enc "ab".toList) ∧
    (Model.from_ absorbed).encode "ab".toList (.num false 0) (fun _ => .num false 0) = .ok [1, 2] := by
  refine ⟨?_, by decide +kernel, spells_one (t := ⟨[97, 98], .num true (2 ^ 1074), false⟩) rfl, by decide +kernel⟩
  have h : ∀ (b : Bool) (k : Nat), k ≤ 2045 → Finite (.num b (2 ^ k)) := fun _ k hk =>
    ⟨1, k, Nat.one_lt_two_pow (by norm_num), hk, (Nat.one_mul _).symm⟩
  intro t ht
  simp only [absorbed, List.mem_cons, List.not_mem_nil, or_false] at ht
  rcases ht with rfl | rfl | rfl | rfl
  · exact h _ _ (by norm_num)
  · exact ⟨0, 0, Nat.two_pow_pos _, by norm_num, rfl⟩
  · exact ⟨0, 0, Nat.two_pow_pos _, by norm_num, rfl⟩
  · exact h _ _ (by norm_num)

/-! ## C101 -/

/-- The bytes of the tokens that `ids` name. -/
def Spec.tokensOf (vocab : List (ScoredToken F)) (ids : List Nat) : List (Option (List UInt8)) :=
  ids.map fun i => (vocab[i]?).map (·.value)

omit [ScoreOps F] in
theorem spells_congr {v w : List (ScoredToken F)} {a : List Nat} : ∀ {b : List Nat} {bs : List UInt8},
    tokensOf w a = tokensOf v b → Spells v b bs → Spells w a bs := by
  induction a with
  | nil =>
    intro b bs h hb
    have : b = [] := by simpa [tokensOf] using h.symm
    subst this
    exact spells_nil.2 (spells_nil.1 hb)
  | cons i a ih =>
    intro b bs h hb
    cases b with
    | nil => simp [tokensOf] at h
    | cons j b =>
      simp only [tokensOf, List.map_cons, List.cons.injEq] at h
      obtain ⟨t, r, h1, h2, rfl⟩ := spells_cons.1 hb
      rw [h1] at h
      obtain ⟨t', h3, h4⟩ := Option.map_eq_some_iff.1 h.1
      exact spells_cons.2 ⟨t', r, h3, ih h.2 h2, by rw [h4]⟩

/-- A copy in `w` of segmentations with tokens that `v` shares. -/
theorem transfer {v w : List (ScoredToken F)} (hw : NoDuplicates w) :
    ∀ {ids : List Nat}, (∀ i ∈ ids, ∃ t t', v[i]? = some t ∧ t' ∈ w ∧ t'.value = t.value ∧ t'.score = t.score) →
    ∃ ids', tokensOf w ids' = tokensOf v ids ∧ ids'.map (scoreOf w) = ids.map (scoreOf v) ∧
      ids'.map (lenOf w) = ids.map (lenOf v) ∧ (Canonical v ids → Canonical w ids') ∧ ∀ bs, Spells v ids bs → Spells w ids' bs
  | [], _ => ⟨[], rfl, rfl, rfl, fun _ i hi => by simp at hi, fun bs h => by rw [spells_nil.1 h]; exact spells_nil.2 rfl⟩
  | i :: ids, h => by
    obtain ⟨ids', h1, h2, h3, h4, h5⟩ := transfer (v := v) hw (ids := ids) fun j hj => h j (by simp [hj])
    obtain ⟨t, t', ht, hm, hv, hs⟩ := h i (by simp)
    obtain ⟨k, hk⟩ := List.getElem?_of_mem hm
    refine ⟨k :: ids', ?_, ?_, ?_, ?_, ?_⟩
    · simp only [tokensOf, List.map_cons, ht, hk, Option.map_some, hv]; rw [← tokensOf, ← tokensOf, h1]
    · simp only [List.map_cons, scoreOf, ht, hk, hs]; rw [show List.map (scoreOf w) ids' = _ from h2]
    · simp only [List.map_cons, lenOf, ht, hk, hv]; rw [show List.map (lenOf w) ids' = _ from h3]
    · intro hc j hj
      rcases List.mem_cons.1 hj with rfl | hj
      · obtain ⟨x, hx, ⟨t'', h6, h7⟩, _⟩ := hc i (by simp)
        rw [ht] at h6
        cases h6
        exact ⟨t'.value, by rw [hv, h7]; exact hx, lastIndex_of_nodup hw hk⟩
      · exact h4 (fun l hl => hc l (by simp [hl])) j hj
    · intro bs hb
      obtain ⟨t'', r, h6, h7, rfl⟩ := spells_cons.1 hb
      rw [ht] at h6
      cases h6
      exact spells_cons.2 ⟨t', r, hk, h5 r h7, by rw [hv]⟩

/-- **C101** Let `w` have only tokens (bytes and scores) of `v`, in any order.  A text whose encoding with `v` uses only tokens
of `w` is encoded with `w` as the same tokens.  This holds for floating-point scores too. -/
theorem C101_unused (good tok : F → Prop) (laws : ScoreLaws F good tok) (v w : List (ScoredToken F))
    (hgood : ∀ t ∈ v, tok t.score) (hv : NoDuplicates v) (hw : NoDuplicates w)
    (hsub : ∀ t ∈ w, ∃ t' ∈ v, t'.value = t.value ∧ t'.score = t.score)
    (s : Str) (dropout dropout' : F) (rnd rnd' : Nat → F) (hd : le dropout zero = true) (hd' : le dropout' zero = true)
    (ids : List Nat) (h : (Model.from_ v).encode s dropout rnd = .ok ids)
    (hused : ∀ i ∈ ids, ∃ t ∈ w, (v[i]?).map (·.value) = some t.value) :
    ∃ ids', (Model.from_ w).encode s dropout' rnd' = .ok ids' ∧ tokensOf w ids' = tokensOf v ids := by
  have inv : ∀ {i : Nat} {t : ScoredToken F} {x : List UInt8}, v[i]? = some t → t.value = x → ∀ t' ∈ v, t'.value = x → t' = t := by
    intro i t x h1 h2 t' h3 h4
    obtain ⟨j, hj⟩ := List.getElem?_of_mem h3
    have a := lastIndex_of_nodup hv h1
    have b := lastIndex_of_nodup hv hj
    have : i = j := by
      rcases Nat.lt_trichotomy i j with h | h | h
      · exact absurd (h4.trans h2.symm) (a.2 j t' h hj)
      · exact h
      · exact absurd (h2.trans h4.symm) (b.2 i t h h1)
    subst this
    rw [h1] at hj
    exact (Option.some.inj hj).symm
  have used : ∀ i ∈ ids, ∃ t t', v[i]? = some t ∧ t' ∈ w ∧ t'.value = t.value ∧ t'.score = t.score := by
    intro i hi
    obtain ⟨t', h1, h2⟩ := hused i hi
    cases ht : v[i]? with
    | none => rw [ht] at h2; simp at h2
    | some t =>
      rw [ht] at h2
      simp only [Option.map_some, Option.some.injEq] at h2
      obtain ⟨t'', h3, h4, h5⟩ := hsub t' h1
      have := inv ht h2 t'' h3 h4
      subst this
      exact ⟨t'', t', rfl, h1, h2.symm, h5.symm⟩
  have back : ∀ other : List Nat, (∃ bs, Spells w other bs) →
      ∀ i ∈ other, ∃ t t', w[i]? = some t ∧ t' ∈ v ∧ t'.value = t.value ∧ t'.score = t.score := by
    intro other
    induction other with
    | nil => simp
    | cons j other ih =>
      rintro ⟨bs, hb⟩ i hi
      obtain ⟨t, r, h1, h2, _⟩ := spells_cons.1 hb
      rcases List.mem_cons.1 hi with rfl | hi
      · obtain ⟨t', h3, h4, h5⟩ := hsub t (List.mem_of_getElem? h1)
        exact ⟨t, t', h1, h3, h4, h5⟩
      · exact ih ⟨r, h2⟩ i hi
  have hgood' : ∀ t ∈ w, tok t.score := by
    intro t ht
    obtain ⟨t', h1, _, h2⟩ := hsub t ht
    rw [← h2]; exact hgood t' h1
  obtain ⟨hbest, -⟩ := C61_ties good tok laws v hgood s dropout rnd hd _ h
  have best : ∀ bs pre pre', BestLongestLast v bs pre → pre'.map (scoreOf w) = pre.map (scoreOf v) →
      pre'.map (lenOf w) = pre.map (lenOf v) → Canonical w pre' → Spells w pre' bs → BestLongestLast w bs pre' := by
    intro bs pre pre' hb e1 e2 hc hsp
    refine ⟨hsp, hc, ?_⟩
    intro other ho hoc
    obtain ⟨o, _, h2, h3, h4, h5⟩ := transfer hv (back other ⟨bs, ho⟩)
    obtain ⟨h6, h7⟩ := hb.2.2 o (h5 bs ho) (h4 hoc)
    have t1 : totalScore w pre' = totalScore v pre := by unfold totalScore; rw [e1]
    have t2 : totalScore w other = totalScore v o := by unfold totalScore; rw [h2]
    refine ⟨by rw [t1, t2]; exact h6, ?_⟩
    intro i j hi hj hl
    have l1 : (pre.map (lenOf v)).getLast? = some (lenOf w i) := by rw [← e2, List.getLast?_map, hi]; rfl
    have l2 : (o.map (lenOf v)).getLast? = some (lenOf w j) := by rw [h3, List.getLast?_map, hj]; rfl
    rw [List.getLast?_map] at l1 l2
    obtain ⟨i', hi', li⟩ := Option.map_eq_some_iff.1 l1
    obtain ⟨j', hj', lj⟩ := Option.map_eq_some_iff.1 l2
    rw [t1, t2]
    exact h7 i' j' hi' hj' (by rw [li, lj]; exact hl)
  obtain ⟨_, _, e0, hb0⟩ := hbest ids [] (by simp)
  have hspell : Spells v ids (enc s) := (C01_encode_lossless v s dropout rnd ids h).2
  obtain ⟨ids', h1, h2, h3, h4, h5⟩ := transfer hw used
  refine ⟨ids', encode_of_best laws hgood' hd' (h5 _ hspell) (h4 hb0.2.1) ?_, h1⟩
  intro p q e
  have elen : ids'.length = ids.length := by simpa using congrArg List.length h2
  have hcut : ids = ids.take p.length ++ ids.drop p.length := by simp
  obtain ⟨bs, rest, e1, hb⟩ := hbest _ _ hcut
  refine ⟨bs, rest, e1, best bs (ids.take p.length) p hb ?_ ?_ (fun i hi => h4 hb0.2.1 i (by rw [e]; simp [hi])) ?_⟩
  · rw [List.map_take, ← h2, e]; simp
  · rw [List.map_take, ← h3, e]; simp
  · refine spells_congr ?_ hb.1
    have e2 : tokensOf v (ids.take p.length) = (tokensOf v ids).take p.length := by simp only [tokensOf, List.map_take]
    rw [e2, ← h1, e]
    simp [tokensOf]

/-- **C101** (order) The order of the vocabulary does not matter: with the same tokens in another order, a text is encoded as the
same tokens, and fails to encode if it failed before. -/
theorem C101_order (good tok : F → Prop) (laws : ScoreLaws F good tok) (v w : List (ScoredToken F))
    (hgood : ∀ t ∈ v, tok t.score) (hv : NoDuplicates v) (hp : w.Perm v)
    (s : Str) (dropout dropout' : F) (rnd rnd' : Nat → F) (hd : le dropout zero = true) (hd' : le dropout' zero = true) :
    (∃ ids ids', (Model.from_ v).encode s dropout rnd = .ok ids ∧ (Model.from_ w).encode s dropout' rnd' = .ok ids' ∧
      tokensOf w ids' = tokensOf v ids) ∨
    (∃ e, (Model.from_ v).encode s dropout rnd = .error e ∧ (Model.from_ w).encode s dropout' rnd' = .error e) := by
  rcases C03_encode_outcomes v s dropout rnd with ⟨ids, h⟩ | h
  · obtain ⟨ids', h1, h2⟩ := C101_unused good tok laws v w hgood hv ((hp.map _).nodup_iff.2 hv)
      (fun t ht => ⟨t, hp.subset ht, rfl, rfl⟩) s dropout dropout' rnd rnd' hd hd' ids h (by
        intro i hi
        obtain ⟨t, ht⟩ : ∃ t, v[i]? = some t :=
          ⟨_, List.getElem?_eq_getElem ((C01_encode_lossless v s dropout rnd ids h).1 i hi)⟩
        exact ⟨t, hp.symm.subset (List.mem_of_getElem? ht), by rw [ht]; rfl⟩)
    exact .inl ⟨ids, ids', h, h1, h2⟩
  · refine .inr ⟨_, h, (C03_encode_complete w s dropout' rnd' hd').2 ?_⟩
    rintro ⟨ps, h1, h2⟩
    obtain ⟨ids, h3⟩ := ((C03_encode_complete v s dropout rnd hd).1).2 ⟨ps, h1, fun p hp' =>
      ⟨(h2 p hp').1, (h2 p hp').2.imp fun t ht => ⟨hp.subset ht.1, ht.2⟩⟩⟩
    rw [h] at h3
    simp at h3

/-- **C101** (more tokens) A larger vocabulary never makes encodings worse: with more tokens, the total score of the encoding of
a text is not smaller. -/
theorem C101_more (good tok : F → Prop) (laws : ScoreLaws F good tok) (v w : List (ScoredToken F))
    (hgood : ∀ t ∈ w, tok t.score) (hw : NoDuplicates w)
    (hsub : ∀ t ∈ v, ∃ t' ∈ w, t'.value = t.value ∧ t'.score = t.score)
    (s : Str) (dropout dropout' : F) (rnd rnd' : Nat → F) (hd' : le dropout' zero = true)
    (ids : List Nat) (h : (Model.from_ v).encode s dropout rnd = .ok ids) :
    ∃ ids', (Model.from_ w).encode s dropout' rnd' = .ok ids' ∧ lt (totalScore w ids') (totalScore v ids) = false := by
  have hs := (C01_encode_lossless v s dropout rnd ids h).2
  have hc : Canonical v ids := fun i hi =>
    (C07_encode_canonical v s dropout rnd ids h i hi).imp fun _ hx => ⟨hx.1, hx.2.1⟩
  obtain ⟨o, _, h2, _, h4, h5⟩ := transfer (v := v) hw (ids := ids) (by
    intro i hi
    obtain ⟨t, ht⟩ : ∃ t, v[i]? = some t :=
      ⟨_, List.getElem?_eq_getElem ((C01_encode_lossless v s dropout rnd ids h).1 i hi)⟩
    obtain ⟨t', h1, h2, h3⟩ := hsub t (List.mem_of_getElem? ht)
    exact ⟨t, t', ht, h1, h2, h3⟩)
  obtain ⟨ids', h'⟩ := ((C03_encode_complete w s dropout' rnd' hd').1).2 (segmentable_of_spells (h5 _ hs) (h4 hc))
  refine ⟨ids', h', ?_⟩
  have := C05_encode_optimal good tok laws w hgood s dropout' rnd' hd' ids' h' o (h5 _ hs) (h4 hc)
  unfold totalScore at this ⊢
  rw [h2] at this
  exact this

/-- **C101** (filter) Filtering a vocabulary changes the encoding of a text only if a token of the encoding is removed. -/
theorem C101_filter (good tok order : F → Prop) (laws : ScoreLaws F good tok) (olaws : OrderLaws F order)
    (f : VocabularyFilter F) (ninf : F) (sorter : Sorter (ScoredToken F)) (hs : SortLaws sorter) (v : List (ScoredToken F))
    (hgood : ∀ t ∈ v, tok t.score) (hord : ∀ t ∈ v, order t.score) (hv : NoDuplicates v) :
    ∃ w, f.filter ninf sorter (Model.from_ v) = .ok (Model.from_ w) ∧
      ∀ (s : Str) (dropout dropout' : F) (rnd rnd' : Nat → F), le dropout zero = true → le dropout' zero = true →
      ∀ ids, (Model.from_ v).encode s dropout rnd = .ok ids → (∀ i ∈ ids, ∃ t ∈ w, v[i]? = some t) →
        ∃ ids', (Model.from_ w).encode s dropout' rnd' = .ok ids' ∧ tokensOf w ids' = tokensOf v ids := by
  have key : ∀ w : List (ScoredToken F), (∃ r, v.Perm (w ++ r)) →
      ∀ (s : Str) (dropout dropout' : F) (rnd rnd' : Nat → F), le dropout zero = true → le dropout' zero = true →
      ∀ ids, (Model.from_ v).encode s dropout rnd = .ok ids → (∀ i ∈ ids, ∃ t ∈ w, v[i]? = some t) →
        ∃ ids', (Model.from_ w).encode s dropout' rnd' = .ok ids' ∧ tokensOf w ids' = tokensOf v ids := by
    rintro w ⟨r, hp⟩ s dropout dropout' rnd rnd' hd hd' ids h hu
    refine C101_unused good tok laws v w hgood hv ?_ (fun t ht => ⟨t, hp.symm.subset (by simp [ht]), rfl, rfl⟩) s dropout
      dropout' rnd rnd' hd hd' ids h (fun i hi => (hu i hi).imp fun t ht => ⟨ht.1, by rw [ht.2]; rfl⟩)
    have : ((w ++ r).map fun t => t.value).Nodup := (hp.map _).nodup_iff.1 hv
    rw [List.map_append] at this
    exact this.of_append_left
  obtain ⟨h1, h2⟩ := C38_filter order olaws f ninf sorter hs v hord
  by_cases hl : v.length ≤ f.vocabSize
  · exact ⟨v, h1 hl, key v ⟨[], by simp⟩⟩
  · obtain ⟨kept, removed, e, hp, _⟩ := h2 (by omega)
    exact ⟨kept, e, key kept ⟨removed, hp⟩⟩

/-- Non-vacuity: without `bc`, which `"cab"` does not use, and in another order, `"cab"` is encoded as before; `"bc"` is not. -/
def partVocabLess : List (ScoredToken Int) :=
  [⟨[97, 98], -4, false⟩, ⟨[99], -3, false⟩, ⟨[98], -3, false⟩, ⟨[97], -3, false⟩]
example : (Model.from_ partVocab).encode "cab".toList 0 exRnd = .ok [2, 3] ∧
    (Model.from_ partVocabLess).encode "cab".toList 0 exRnd = .ok [1, 0] ∧
    tokensOf partVocabLess [1, 0] = tokensOf partVocab [2, 3] ∧ NoDuplicates partVocab ∧ NoDuplicates partVocabLess ∧
    (∀ t ∈ partVocabLess, ∃ t' ∈ partVocab, t'.value = t.value ∧ t'.score = t.score) := by unfold NoDuplicates; decide
example : (Model.from_ partVocab).encode "bc".toList 0 exRnd = .ok [4] ∧
    (Model.from_ partVocabLess).encode "bc".toList 0 exRnd = .ok [2, 1] := by decide
end Tokengeex

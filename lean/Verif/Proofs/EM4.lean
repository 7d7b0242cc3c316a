import Verif.Proofs.EM3
import Mathlib.Analysis.Complex.ExponentialBounds
/-
The E-step computes expected numbers of uses.
-/
namespace Tokengeex
open Spec ScoreOps RealOps

theorem cutEvery_chunks {n : Nat} (hn : 0 < n) : ∀ (ps : List (List UInt8)) (bs : List UInt8), CutEvery n bs ps →
    ps = Parallel.chunks n bs := by
  intro ps
  induction ps with
  | nil =>
    rintro bs ⟨h, _⟩
    rw [← h, Parallel.chunks, dif_pos (by simp)]
  | cons p ps ih =>
    rintro bs ⟨h, h1, h2⟩
    obtain ⟨h3, h4⟩ := h1 p (List.mem_cons_self ..)
    rw [List.flatten_cons] at h
    have hbs : bs ≠ [] := by
      rintro rfl
      exact h3 (List.append_eq_nil_iff.1 h).1
    rw [Parallel.chunks, dif_neg (by rintro (h | h) <;> [omega; exact hbs h])]
    by_cases hps : ps = []
    · subst hps
      simp only [List.flatten_nil, List.append_nil] at h
      subst h
      rw [List.take_of_length_le h4, List.drop_of_length_le h4, Parallel.chunks, dif_pos (by simp)]
    · have h5 : p.length = n := h2 p (by
        rw [List.dropLast_cons_of_ne_nil hps]
        exact List.mem_cons_self ..)
      have h6 := ih ps.flatten ⟨rfl, fun q hq => h1 q (List.mem_cons_of_mem _ hq), fun q hq => h2 q (by
        rw [List.dropLast_cons_of_ne_nil hps]
        exact List.mem_cons_of_mem _ hq)⟩
      rw [← h, ← h5, List.take_left, List.drop_left, h5, ← h6]

theorem chunks_cutEvery {n : Nat} (hn : 0 < n) (bs : List UInt8) : CutEvery n bs (Parallel.chunks n bs) := by
  refine ⟨Parallel.chunks_flatten n hn bs, Parallel.chunks_ne n hn bs, ?_⟩
  induction hl : bs.length using Nat.strongRecOn generalizing bs with
  | _ m ih =>
    unfold Parallel.chunks
    by_cases h : n = 0 ∨ bs = []
    · rw [dif_pos h]; simp
    · rw [dif_neg h]
      have hb : bs ≠ [] := fun e => h (Or.inr e)
      have hlen := List.length_pos_iff.2 hb
      by_cases hd : bs.length ≤ n
      · rw [List.drop_of_length_le hd, Parallel.chunks, dif_pos (by simp)]
        simp
      · have hne : Parallel.chunks n (bs.drop n) ≠ [] := by
          intro e
          have := Parallel.chunks_flatten n hn (bs.drop n)
          rw [e] at this
          have := congrArg List.length this
          simp at this
          omega
        rw [List.dropLast_cons_of_ne_nil hne]
        intro p hp
        rcases List.mem_cons.1 hp with rfl | hp
        · rw [List.length_take]; omega
        · exact ih (bs.drop n).length (by rw [List.length_drop]; omega) (bs.drop n) rfl p hp

variable {vocab : List (ScoredToken ℝ)} {sentence : List UInt8} {es : List (Entry ℝ)}

section
variable (hnd : NoDuplicates vocab) (hne : ∀ t ∈ vocab, t.value ≠ [])
  (hT : ∀ e ∈ es, TokenAt vocab sentence e) (hd : es.Pairwise (fun a b => ¬ (a.pos = b.pos ∧ a.len = b.len)))
  (hall : ∀ e, TokenAt vocab sentence e → e ∈ es)

theorem spells_nil_iff {bs : List UInt8} : Spells vocab [] bs ↔ bs = [] := by
  constructor
  · rintro ⟨toks, h1, h2⟩
    cases toks with
    | nil => simpa using h2.symm
    | cons _ _ => simp at h1
  · rintro rfl
    exact ⟨[], rfl, rfl⟩

theorem spells_cons' {i : Nat} {ids : List Nat} {bs : List UInt8} :
    Spells vocab (i :: ids) bs ↔ ∃ t rest, vocab[i]? = some t ∧ bs = t.value ++ rest ∧ Spells vocab ids rest := by
  constructor
  · rintro ⟨toks, h1, h2⟩
    cases toks with
    | nil => simp at h1
    | cons t toks =>
      simp only [List.map_cons, List.cons.injEq] at h1
      exact ⟨t, _, h1.1, by simpa using h2.symm, toks, h1.2, rfl⟩
  · rintro ⟨t, rest, h1, rfl, toks, h2, rfl⟩
    exact ⟨t :: toks, by simp [h1, h2], by simp⟩

include hT in
theorem run_spells {js : List Nat} : ∀ {a : Nat}, Run es a js sentence.length → Spells vocab (js.map (idOf es)) (sentence.drop a) := by
  induction js with
  | nil =>
    intro a h
    have : a = sentence.length := h
    rw [List.map_nil, spells_nil_iff, this, List.drop_length]
  | cons j js ih =>
    rintro a ⟨e, h1, h2, h3⟩
    obtain ⟨t, ht, hv, _⟩ := tokenAt_value (hT e (List.mem_of_getElem? h1))
    have hl := (hT e (List.mem_of_getElem? h1)).2.1
    rw [List.map_cons, spells_cons']
    refine ⟨t, sentence.drop (a + e.len), by simpa [idOf, h1] using ht, ?_, ih h3⟩
    rw [hv, h2, ← List.drop_drop, List.take_append_drop]

include hT hd in
theorem run_inj {js : List Nat} : ∀ {a b : Nat} {ks : List Nat}, Run es a js b → Run es a ks b → js.map (idOf es) = ks.map (idOf es) →
    js = ks := by
  induction js with
  | nil =>
    intro a b ks _ _ h
    cases ks with
    | nil => rfl
    | cons _ _ => simp at h
  | cons j js ih =>
    intro a b ks h1 h2 h
    cases ks with
    | nil => simp at h
    | cons k ks =>
      obtain ⟨e, e1, e2, e3⟩ := h1
      obtain ⟨f, f1, f2, f3⟩ := h2
      simp only [List.map_cons, List.cons.injEq] at h
      have hid : e.id = f.id := by simpa [idOf, e1, f1] using h.1
      obtain ⟨t, ht, _, _⟩ := tokenAt_value (hT e (List.mem_of_getElem? e1))
      have l1 := tokenAt_length (hT e (List.mem_of_getElem? e1)) ht
      have l2 := tokenAt_length (hT f (List.mem_of_getElem? f1)) (by rw [← hid]; exact ht)
      have hjk : j = k := entry_unique hd e1 f1 (by omega) (by omega)
      subst hjk
      rw [e1] at f1
      cases f1
      rw [ih e3 f3 h.2]

include hnd in
theorem lastIndex_of_get {i : Nat} {t : ScoredToken ℝ} (h : vocab[i]? = some t) : LastIndex vocab t.value i := by
  refine ⟨⟨t, h, rfl⟩, ?_⟩
  intro j u hij hu he
  obtain ⟨hi, e1⟩ := List.getElem?_eq_some_iff.1 h
  obtain ⟨hj, e2⟩ := List.getElem?_eq_some_iff.1 hu
  have := (List.nodup_iff_injective_getElem.1 hnd) (a₁ := ⟨i, by simpa using hi⟩) (a₂ := ⟨j, by simpa using hj⟩) (by
    simp only [List.getElem_map]
    rw [e1, e2, he])
  simp only [Fin.mk.injEq] at this
  omega

include hnd hne hall in
theorem spells_run {ids : List Nat} : ∀ {a : Nat}, a ≤ sentence.length → Spells vocab ids (sentence.drop a) →
    ∃ js, Run es a js sentence.length ∧ js.map (idOf es) = ids := by
  induction ids with
  | nil =>
    intro a ha h
    rw [spells_nil_iff, List.drop_eq_nil_iff] at h
    exact ⟨[], show a = _ by omega, rfl⟩
  | cons i ids ih =>
    intro a ha h
    obtain ⟨t, rest, ht, h1, h2⟩ := spells_cons'.1 h
    have hlen := congrArg List.length h1
    rw [List.length_drop, List.length_append] at hlen
    have htk : (sentence.drop a).take t.value.length = t.value := by rw [h1, List.take_left]
    have hrest : rest = sentence.drop (a + t.value.length) := by
      rw [← List.drop_drop, h1, List.drop_left]
    have hpos : 0 < t.value.length := List.length_pos_iff.2 (hne t (List.mem_of_getElem? ht))
    have hmem := hall ⟨a, i, t.value.length, t.score⟩ ⟨hpos, by simp only; omega, by
      simp only [htk]
      exact lastIndex_of_get hnd ht, t, ht, rfl⟩
    obtain ⟨j, hj⟩ := List.mem_iff_getElem?.1 hmem
    rw [hrest] at h2
    obtain ⟨js, h3, h4⟩ := ih (by omega) h2
    exact ⟨j :: js, ⟨_, hj, rfl, h3⟩, by simp [idOf, hj, h4]⟩

include hT in
theorem run_score {js : List Nat} : ∀ {a b : Nat}, Run es a js b → runScore es js = ((js.map (idOf es)).map (scoreOf vocab)).sum := by
  induction js with
  | nil => intro _ _ _; simp [runScore]
  | cons j js ih =>
    rintro a b ⟨e, h1, h2, h3⟩
    have := ih h3
    unfold runScore at this ⊢
    obtain ⟨t, ht, _, hs⟩ := tokenAt_value (hT e (List.mem_of_getElem? h1))
    rw [List.map_cons, List.sum_cons, List.map_cons, List.map_cons, List.sum_cons, this]
    congr 1
    simp [entryScore, scoreOf, idOf, h1, ht, hs]

theorem run_occurrences {js : List Nat} (i : Nat) : ∀ {a b : Nat}, Run es a js b → occurrences es i js = (js.map (idOf es)).count i := by
  induction js with
  | nil => intro _ _ _; simp [occurrences]
  | cons j js ih =>
    rintro a b ⟨e, h1, h2, h3⟩
    have := ih h3
    unfold occurrences at this ⊢
    rw [List.countP_cons, this, List.map_cons, List.count_cons]
    simp [idOf, h1]

include hnd hne hT hd hall in
/-- The segmentations of the lattice are the ways of cutting the sentence into tokens. -/
theorem expectedCount_cuts {segs cuts : Finset (List Nat)} (hs : AllSegmentations sentence.length es segs)
    (hc : AllCuts vocab sentence cuts) (i : Nat) : expectedCount es segs i = expectedUses vocab cuts i := by
  have hbij : ∀ g : List Nat → ℝ, ∑ js ∈ segs, g (js.map (idOf es)) = ∑ ids ∈ cuts, g ids := by
    intro g
    refine Finset.sum_nbij (fun js => js.map (idOf es)) ?_ ?_ ?_ ?_
    · intro js hjs
      have := run_spells hT ((hs js).1 hjs)
      exact (hc _).2 (by simpa using this)
    · intro js hjs ks hks h
      exact run_inj hT hd ((hs js).1 hjs) ((hs ks).1 hks) h
    · intro ids hids
      obtain ⟨js, h1, h2⟩ := spells_run hnd hne hall (Nat.zero_le _) (by simpa using (hc ids).1 hids)
      exact ⟨js, (hs js).2 h1, h2⟩
    · intro js _
      rfl
  have h1 : partition es segs = ∑ ids ∈ cuts, cutWeight vocab ids := by
    rw [← hbij]
    unfold partition cutWeight
    exact Finset.sum_congr rfl (fun js hjs => by rw [run_score hT ((hs js).1 hjs)])
  unfold expectedCount expectedUses
  rw [h1, ← hbij (fun ids => cutWeight vocab ids * ids.count i), Finset.sum_div]
  refine Finset.sum_congr rfl (fun js hjs => ?_)
  rw [run_occurrences i ((hs js).1 hjs), run_score hT ((hs js).1 hjs)]
  unfold cutWeight
  ring

include hT hd in
theorem entries_length_le : es.length ≤ sentence.length * vocab.length := by
  have hn : (es.map (fun e => (e.pos, e.id))).Nodup := by
    refine List.Pairwise.map _ ?_ (List.pairwise_iff_getElem.2 ?_ : es.Pairwise (fun a b => ¬ (a.pos = b.pos ∧ a.id = b.id)))
    · intro a b h e
      simp only [Prod.mk.injEq] at e
      exact h e
    · intro j k hj hk hjk ⟨e1, e2⟩
      rw [List.pairwise_iff_getElem] at hd
      refine hd j k hj hk hjk ⟨e1, ?_⟩
      obtain ⟨t, ht, _, _⟩ := tokenAt_value (hT _ (List.getElem_mem hj))
      have l1 := tokenAt_length (hT _ (List.getElem_mem hj)) ht
      have l2 := tokenAt_length (hT _ (List.getElem_mem hk)) (by rw [← e2]; exact ht)
      omega
  have hsub : (es.map (fun e => (e.pos, e.id))).toFinset ⊆ Finset.range sentence.length ×ˢ Finset.range vocab.length := by
    intro p hp
    rw [List.mem_toFinset] at hp
    obtain ⟨e, he, rfl⟩ := List.mem_map.1 hp
    obtain ⟨t, ht, _, _⟩ := tokenAt_value (hT e he)
    have h1 := (hT e he).1
    have h2 := (hT e he).2.1
    rw [Finset.mem_product, Finset.mem_range, Finset.mem_range]
    refine ⟨?_, (List.getElem?_eq_some_iff.1 ht).1⟩
    show e.pos < _
    omega
  have := Finset.card_le_card hsub
  rw [List.toFinset_card_of_nodup hn, List.length_map, Finset.card_product, Finset.card_range, Finset.card_range] at this
  exact this

end

theorem cuts_finite (hne : ∀ t ∈ vocab, t.value ≠ []) (bs : List UInt8) : {ids | Spells vocab ids bs}.Finite := by
  have hlen : ∀ ids bs, Spells vocab ids bs → ids.length ≤ bs.length ∧ ∀ i ∈ ids, i < vocab.length := by
    intro ids
    induction ids with
    | nil => intro bs _; simp
    | cons i ids ih =>
      intro bs h
      obtain ⟨t, rest, h1, h2, h3⟩ := spells_cons'.1 h
      obtain ⟨h4, h5⟩ := ih rest h3
      have := List.length_pos_iff.2 (hne t (List.mem_of_getElem? h1))
      rw [h2, List.length_cons, List.length_append]
      refine ⟨by omega, ?_⟩
      intro k hk
      rcases List.mem_cons.1 hk with rfl | hk
      · exact (List.getElem?_eq_some_iff.1 h1).1
      · exact h5 k hk
  have hfin : ∀ n, {ids : List Nat | ids.length ≤ n ∧ ∀ i ∈ ids, i < vocab.length}.Finite := by
    intro n
    induction n with
    | zero =>
      refine Set.Finite.subset (Set.finite_singleton []) ?_
      rintro ids ⟨h, _⟩
      exact List.length_eq_zero_iff.1 (by omega)
    | succ n ih =>
      refine Set.Finite.subset ((Set.finite_singleton ([] : List Nat)).union
        (Set.Finite.image2 (fun i (ids : List Nat) => i :: ids) (Set.finite_lt_nat vocab.length) ih)) ?_
      rintro ids ⟨h1, h2⟩
      cases ids with
      | nil => exact Or.inl rfl
      | cons i ids =>
        refine Or.inr ⟨i, h2 i (List.mem_cons_self ..), ids, ⟨by rw [List.length_cons] at h1; omega, fun k hk => h2 k (List.mem_cons_of_mem _ hk)⟩, rfl⟩
  exact (hfin bs.length).subset (fun ids h => hlen ids bs h)

/-! ### Error bounds -/

theorem exp_neg_fifty : Real.exp (-50) < 1 / 1000000000000000000000 := by
  rw [Real.exp_neg, inv_lt_comm₀ (Real.exp_pos _) (by norm_num)]
  have h1 := Real.exp_one_gt_d9
  have h2 : Real.exp 50 = Real.exp 1 ^ 50 := by
    rw [← Real.exp_nat_mul]; norm_num
  rw [h2]
  calc (1 / 1000000000000000000000 : ℝ)⁻¹ < (2.7182818283 : ℝ) ^ 50 := by norm_num
    _ ≤ Real.exp 1 ^ 50 := pow_le_pow_left₀ (by norm_num) h1.le _

/-- The error of the E-step for a vocabulary whose tokens can be numbered with 32 bits. -/
theorem err_bounds {N : ℝ} (h0 : 0 ≤ N) (h : N ≤ 360000000000000) {x y : ℝ} (hx : 0 ≤ x)
    (h1 : x * Real.exp (-(2 * N * Real.exp (-50))) ≤ y) (h2 : y ≤ x * Real.exp (N * Real.exp (-50))) : Nearly y x := by
  have he := exp_neg_fifty
  have hp := Real.exp_pos (-50)
  have hb : N * Real.exp (-50) ≤ 1 / 2500000 := by
    calc N * Real.exp (-50) ≤ 360000000000000 * (1 / 1000000000000000000000) := by
          apply mul_le_mul h he.le hp.le (by norm_num)
      _ ≤ 1 / 2500000 := by norm_num
  have hb0 : 0 ≤ N * Real.exp (-50) := by positivity
  set d := N * Real.exp (-50) with hd
  constructor
  · refine le_trans ?_ h1
    apply mul_le_mul_of_nonneg_left _ hx
    have := Real.one_sub_le_exp_neg (2 * N * Real.exp (-50))
    have e : 2 * N * Real.exp (-50) = 2 * d := by rw [hd]; ring
    rw [e] at this ⊢
    linarith
  · refine h2.trans ?_
    apply mul_le_mul_of_nonneg_left _ hx
    have h3 := Real.one_sub_le_exp_neg d
    have h4 : Real.exp d * Real.exp (-d) = 1 := by rw [← Real.exp_add]; simp
    have h5 := Real.exp_pos d
    by_contra hcon
    push Not at hcon
    nlinarith

theorem expectedCount_nonneg (segs : Finset (List Nat)) (i : Nat) : 0 ≤ expectedCount es segs i := by
  unfold expectedCount
  refine Finset.sum_nonneg (fun js _ => ?_)
  have : 0 ≤ partition es segs := Finset.sum_nonneg (fun js _ => (Real.exp_pos _).le)
  have := Real.exp_pos (runScore es js)
  positivity

theorem Spec.Nearly.sum {α : Type} {l : List α} {f g : α → ℝ} (h : ∀ a ∈ l, Nearly (f a) (g a)) : Nearly (l.map f).sum (l.map g).sum := by
  induction l with
  | nil => simp [Nearly]
  | cons a l ih =>
    obtain ⟨h1, h2⟩ := h a (List.mem_cons_self ..)
    obtain ⟨h3, h4⟩ := ih (fun x hx => h x (List.mem_cons_of_mem _ hx))
    rw [List.map_cons, List.sum_cons, List.map_cons, List.sum_cons]
    constructor <;> nlinarith

theorem nearly_forall₂ {α : Type} {R : α → (Nat → ℝ) → Prop} {g : α → ℝ} {φ : (Nat → ℝ) → ℝ} (h : ∀ a y, R a y → Nearly (φ y) (g a)) :
    ∀ {l : List α} {ys : List (Nat → ℝ)}, List.Forall₂ R l ys → Nearly (ys.map φ).sum (l.map g).sum := by
  intro l ys h'
  induction h' with
  | nil => simp [Nearly]
  | @cons a y l ys h1 _ ih =>
    obtain ⟨h1, h2⟩ := h a y h1
    obtain ⟨h3, h4⟩ := ih
    rw [List.map_cons, List.sum_cons, List.map_cons, List.sum_cons]
    constructor <;> nlinarith

namespace Pruner

theorem pieceGives_bounds {dropout : ℝ} (hsize : vocab.length ≤ 4294967296) {p : List UInt8} {y : Nat → ℝ} (h : PieceGives vocab dropout p y) :
    ∃ es segs, (∀ e ∈ es, TokenAt vocab p e) ∧ es.Pairwise (fun a b => ¬ (a.pos = b.pos ∧ a.len = b.len)) ∧
      (∀ e, TokenAt vocab p e → e.len = 1 → e ∈ es) ∧ (lt zero dropout = false → ∀ e, TokenAt vocab p e → e ∈ es) ∧
      AllSegmentations p.length es segs ∧ BytesCovered vocab p ∧
      ∀ i, i < vocab.length → Nearly (y i) (expectedCount es segs i) := by
  obtain ⟨es, segs, h1, h2, h3, h4, h5, h6, h7, h8⟩ := h
  refine ⟨es, segs, h1, h2, h3, h4, h5, h7, fun i hi => ?_⟩
  obtain ⟨h9, h10⟩ := h8 i hi
  have hl : es.length ≤ 81920 * 4294967296 := (entries_length_le h1 h2).trans (Nat.mul_le_mul h6 hsize)
  have hN : (es.length : ℝ) + 2 ≤ 360000000000000 := by
    have : (es.length : ℝ) ≤ 81920 * 4294967296 := by exact_mod_cast hl
    linarith
  exact err_bounds (by positivity) hN (expectedCount_nonneg _ _) h9 h10

/-- The lengths of the tokens, weighted by what a piece gives. -/
theorem pieceGives_mass {dropout : ℝ} (hsize : vocab.length ≤ 4294967296) {p : List UInt8} {y : Nat → ℝ} (h : PieceGives vocab dropout p y) :
    Nearly (∑ i ∈ Finset.range vocab.length, (lenOf vocab i : ℝ) * y i) p.length := by
  obtain ⟨es, segs, h1, h2, h3, _, h5, h6, h7⟩ := pieceGives_bounds hsize h
  obtain ⟨hi, hg, _, hid⟩ := noGaps_of_bytes h6 h1 h3
  have hlen := C36_lengths p es hi hg segs h5 vocab.length hid (lenOf vocab) (by
    intro e he
    obtain ⟨t, ht, _, _⟩ := tokenAt_value (h1 e he)
    have := tokenAt_length (h1 e he) ht
    simp [lenOf, ht, this])
  rw [← hlen]
  constructor
  · rw [Finset.sum_mul]
    refine Finset.sum_le_sum (fun i hi => ?_)
    have := (h7 i (Finset.mem_range.1 hi)).1
    rw [mul_assoc]
    exact mul_le_mul_of_nonneg_left this (Nat.cast_nonneg _)
  · rw [Finset.sum_mul]
    refine Finset.sum_le_sum (fun i hi => ?_)
    have := (h7 i (Finset.mem_range.1 hi)).2
    rw [mul_assoc]
    exact mul_le_mul_of_nonneg_left this (Nat.cast_nonneg _)

end Pruner
end Tokengeex

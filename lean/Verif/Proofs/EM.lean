import Verif.Props.Marginal
import Verif.Spec.EM
/-
The probability of a sentence is less than 1.
-/
namespace Tokengeex
open Spec

variable {vocab : List (ScoredToken ℝ)} {sentence : List UInt8} {es : List (Entry ℝ)}

theorem tokenAt_value {e : Entry ℝ} (h : TokenAt vocab sentence e) :
    ∃ t, vocab[e.id]? = some t ∧ t.value = (sentence.drop e.pos).take e.len ∧ t.score = e.score := by
  obtain ⟨_, _, ⟨⟨t, ht, hv⟩, _⟩, u, hu, hs⟩ := h
  rw [ht] at hu
  cases hu
  exact ⟨t, ht, hv, hs⟩

theorem tokenAt_length {e : Entry ℝ} (h : TokenAt vocab sentence e) {t : ScoredToken ℝ} (ht : vocab[e.id]? = some t) :
    t.value.length = e.len := by
  obtain ⟨u, hu, hv, _⟩ := tokenAt_value h
  rw [ht] at hu
  cases hu
  rw [hv, List.length_take, List.length_drop]
  have := h.2.1
  omega

/-- Probability of token `i`. -/
noncomputable def probOf (vocab : List (ScoredToken ℝ)) (i : Nat) : ℝ := ((vocab[i]?.map fun t => Real.exp t.score)).getD 0

theorem probOf_nonneg (i : Nat) : 0 ≤ probOf vocab i := by
  unfold probOf
  cases vocab[i]? with
  | none => simp
  | some t => simpa using (Real.exp_pos t.score).le

theorem probOf_pos {i : Nat} (h : i < vocab.length) : 0 < probOf vocab i := by
  unfold probOf
  rw [List.getElem?_eq_getElem h]
  simpa using Real.exp_pos _

theorem probOf_sum : ∑ i ∈ Finset.range vocab.length, probOf vocab i = (vocab.map fun t => Real.exp t.score).sum := by
  induction vocab with
  | nil => simp
  | cons t v ih =>
    rw [List.length_cons, Finset.sum_range_succ', List.map_cons, List.sum_cons, ← ih, add_comm]
    simp [probOf]

section
variable (hT : ∀ e ∈ es, TokenAt vocab sentence e)
  (hd : es.Pairwise (fun a b => ¬ (a.pos = b.pos ∧ a.len = b.len)))

include hT in
theorem exp_entryScore {j : Nat} {e : Entry ℝ} (he : es[j]? = some e) : Real.exp (entryScore es j) = probOf vocab e.id := by
  obtain ⟨t, ht, _, hs⟩ := tokenAt_value (hT e (List.mem_of_getElem? he))
  simp [entryScore, probOf, he, ht, hs]

include hd in
theorem entry_unique {j k : Nat} {a b : Entry ℝ} (ha : es[j]? = some a) (hb : es[k]? = some b) (h1 : a.pos = b.pos)
    (h2 : a.len = b.len) : j = k := by
  obtain ⟨hj, rfl⟩ := List.getElem?_eq_some_iff.1 ha
  obtain ⟨hk, rfl⟩ := List.getElem?_eq_some_iff.1 hb
  rw [List.pairwise_iff_getElem] at hd
  rcases Nat.lt_trichotomy j k with h | h | h
  · exact absurd ⟨h1, h2⟩ (hd j k hj hk h)
  · exact h
  · exact absurd ⟨h1.symm, h2.symm⟩ (hd k j hk hj h)

include hT hd in
/-- Two tokens that end at the same position have different identifiers. -/
theorem idOf_injOn (b : Nat) : Set.InjOn (idOf es) (entryNums es (fun e => e.pos + e.len == b)) := by
  intro j hj k hk h
  obtain ⟨e, he, h1⟩ := mem_entryNums.1 hj
  obtain ⟨f, hf, h2⟩ := mem_entryNums.1 hk
  simp only [beq_iff_eq] at h1 h2
  have hid : e.id = f.id := by simpa [idOf, he, hf] using h
  obtain ⟨t, ht, _, _⟩ := tokenAt_value (hT e (List.mem_of_getElem? he))
  have l1 := tokenAt_length (hT e (List.mem_of_getElem? he)) ht
  have l2 := tokenAt_length (hT f (List.mem_of_getElem? hf)) (by rw [← hid]; exact ht)
  exact entry_unique hd he hf (by omega) (by omega)

include hT hd in
/-- Every non-empty sentence has a probability smaller than 1. -/
theorem total_lt_one (hi : Inside sentence.length es)
    (h2 : 2 ≤ vocab.length ∨ (vocab.map fun t => Real.exp t.score).sum < 1) (hp : SubProbability vocab) : ∀ b, 0 < b → total hi 0 b < 1 := by
  intro b
  induction b using Nat.strongRecOn with
  | ind b ih =>
    intro hb
    rw [total_last hi 0 b (by omega)]
    set J := entryNums es (fun e => e.pos + e.len == b) with hJ
    have hinj := idOf_injOn hT hd b
    have hle1 : ∀ a, a < b → total hi 0 a ≤ 1 := by
      intro a ha
      rcases Nat.eq_zero_or_pos a with rfl | h
      · rw [total_self]
      · exact (ih a ha h).le
    have hpos : ∀ j ∈ J, posOf es j < b := by
      intro j hj
      obtain ⟨e, he, h1⟩ := mem_entryNums.1 hj
      simp only [beq_iff_eq] at h1
      have := (hi e (List.mem_of_getElem? he)).1
      rw [posOf_eq he]
      omega
    have hw : ∀ j ∈ J, Real.exp (entryScore es j) = probOf vocab (idOf es j) := by
      intro j hj
      obtain ⟨e, he, _⟩ := mem_entryNums.1 hj
      rw [exp_entryScore hT he]
      simp [idOf, he]
    have hsub : J.image (idOf es) ⊆ Finset.range vocab.length := by
      intro i hi'
      obtain ⟨j, hj, rfl⟩ := Finset.mem_image.1 hi'
      obtain ⟨e, he, _⟩ := mem_entryNums.1 hj
      obtain ⟨t, ht, _, _⟩ := tokenAt_value (hT e (List.mem_of_getElem? he))
      rw [Finset.mem_range]
      simpa [idOf, he] using (List.getElem?_eq_some_iff.1 ht).1
    have hsum : ∑ j ∈ J, Real.exp (entryScore es j) = ∑ i ∈ J.image (idOf es), probOf vocab i := by
      rw [Finset.sum_image hinj]
      exact Finset.sum_congr rfl hw
    have htot : ∑ i ∈ Finset.range vocab.length, probOf vocab i ≤ 1 := by rw [probOf_sum]; exact hp
    have hstep : ∀ j ∈ J, Real.exp (entryScore es j) * total hi 0 (posOf es j) ≤ Real.exp (entryScore es j) := by
      intro j hj
      exact mul_le_of_le_one_right (Real.exp_pos _).le (hle1 _ (hpos j hj))
    by_cases hall : ∃ j ∈ J, 0 < posOf es j
    · obtain ⟨j, hj, h0⟩ := hall
      have : ∑ j ∈ J, Real.exp (entryScore es j) * total hi 0 (posOf es j) < ∑ j ∈ J, Real.exp (entryScore es j) := by
        refine Finset.sum_lt_sum hstep ⟨j, hj, ?_⟩
        exact mul_lt_of_lt_one_right (Real.exp_pos _) (ih _ (hpos j hj) h0)
      have h3 := Finset.sum_le_sum_of_subset_of_nonneg hsub (fun i _ _ => probOf_nonneg (vocab := vocab) i)
      linarith
    · -- all tokens that end here are the whole prefix
      have hzero : ∀ j ∈ J, posOf es j = 0 := by
        intro j hj
        by_contra h
        exact hall ⟨j, hj, by omega⟩
      have hcard : J.card ≤ 1 := by
        rw [Finset.card_le_one]
        intro j hj k hk
        obtain ⟨e, he, h1⟩ := mem_entryNums.1 hj
        obtain ⟨f, hf, h4⟩ := mem_entryNums.1 hk
        simp only [beq_iff_eq] at h1 h4
        have e1 := hzero j hj
        have e2 := hzero k hk
        rw [posOf_eq he] at e1
        rw [posOf_eq hf] at e2
        exact entry_unique hd he hf (by omega) (by omega)
      have hcard2 : (J.image (idOf es)).card ≤ 1 := Finset.card_image_le.trans hcard
      have h5 := Finset.sum_le_sum hstep
      rcases h2 with h2 | h2
      · obtain ⟨i, hi1, hi2⟩ : ∃ i ∈ Finset.range vocab.length, i ∉ J.image (idOf es) := by
          by_contra h
          push Not at h
          have := Finset.card_le_card (s := Finset.range vocab.length) (t := J.image (idOf es)) h
          rw [Finset.card_range] at this
          omega
        have h3 : ∑ i ∈ J.image (idOf es), probOf vocab i < ∑ i ∈ Finset.range vocab.length, probOf vocab i :=
          Finset.sum_lt_sum_of_subset hsub hi1 hi2 (probOf_pos (Finset.mem_range.1 hi1)) (fun k _ _ => probOf_nonneg k)
        linarith
      · have h3 := Finset.sum_le_sum_of_subset_of_nonneg hsub (fun i _ _ => probOf_nonneg (vocab := vocab) i)
        rw [probOf_sum] at h3
        linarith

end

end Tokengeex

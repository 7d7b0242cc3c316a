import Verif.Proofs.EM
import Verif.Proofs.TablesF64
import Verif.Spec.TrainF64
import Mathlib.Data.Finset.Prod
/-
The probability of a sentence when no byte ends too many tokens, and the number of nodes of a lattice.
-/
namespace Tokengeex
open Spec

theorem lastIndex_real {vocab : List (ScoredToken F64)} {v : List UInt8} {i : Nat} (h : LastIndex vocab v i) :
    LastIndex (realVocabOf vocab) v i := by
  obtain ⟨⟨t, h1, h2⟩, h3⟩ := h
  refine ⟨⟨_, by unfold realVocabOf; rw [List.getElem?_map, h1]; rfl, h2⟩, ?_⟩
  intro j u hj hu
  unfold realVocabOf at hu
  rw [List.getElem?_map] at hu
  cases hv : vocab[j]? with
  | none => rw [hv] at hu; simp at hu
  | some x =>
    rw [hv] at hu
    simp only [Option.map_some, Option.some.injEq] at hu
    subst hu
    exact h3 j x hj hv

theorem tokenAt_real {vocab : List (ScoredToken F64)} {sentence : List UInt8} {es : List (Entry F64)}
    (h : ∀ e ∈ es, TokenAt vocab sentence e) : ∀ e ∈ realEntries es, TokenAt (realVocabOf vocab) sentence e := by
  intro e he
  obtain ⟨x, hx, rfl⟩ := List.mem_map.1 he
  obtain ⟨h1, h2, h3, t, h4, h5⟩ := h x hx
  exact ⟨h1, h2, lastIndex_real h3, _, by unfold realVocabOf; rw [List.getElem?_map, h4]; rfl, by simp [h5]⟩

theorem pairwise_real {es : List (Entry F64)} (h : es.Pairwise (fun a b => ¬ (a.pos = b.pos ∧ a.len = b.len))) :
    (realEntries es).Pairwise (fun a b => ¬ (a.pos = b.pos ∧ a.len = b.len)) := by
  unfold realEntries
  rw [List.pairwise_map]
  exact h

theorem getLast_slice {sentence : List UInt8} {p l : Nat} (h0 : 0 < l) (h : p + l ≤ sentence.length) :
    ((sentence.drop p).take l).getLast? = sentence[p + l - 1]? := by
  rw [List.getLast?_eq_getElem?, List.length_take, List.length_drop, List.getElem?_take, if_pos (by omega), List.getElem?_drop]
  congr 1
  omega

theorem probOf_sum_filter (vocab : List (ScoredToken ℝ)) (c : ScoredToken ℝ → Bool) :
    (∑ i ∈ Finset.range vocab.length, if (vocab[i]?.map c).getD false then probOf vocab i else 0) =
      ((vocab.filter c).map fun t => Real.exp t.score).sum := by
  induction vocab with
  | nil => simp
  | cons t v ih =>
    rw [List.length_cons, Finset.sum_range_succ', List.filter_cons]
    have : (∑ k ∈ Finset.range v.length, if (((t :: v)[k + 1]?).map c).getD false then probOf (t :: v) (k + 1) else 0) =
        ((v.filter c).map fun t => Real.exp t.score).sum := by
      rw [← ih]
      apply Finset.sum_congr rfl
      intro k _
      simp [probOf]
    rw [this]
    by_cases h : c t = true
    · simp [h, probOf, add_comm]
    · simp [h]

section
variable {vocab : List (ScoredToken ℝ)} {sentence : List UInt8} {es : List (Entry ℝ)}
  (hT : ∀ e ∈ es, TokenAt vocab sentence e) (hd : es.Pairwise (fun a b => ¬ (a.pos = b.pos ∧ a.len = b.len)))
include hT hd

/-- If the tokens ending with any given byte have a total probability of at most `q`, so has every non-empty sentence. -/
theorem total_le_spread (hi : Inside sentence.length es) {q : ℝ} (hq : q ≤ 1)
    (hs : ∀ b : UInt8, ((vocab.filter fun t => t.value.getLast? == some b).map fun t => Real.exp t.score).sum ≤ q) :
    ∀ b, 0 < b → b ≤ sentence.length → total hi 0 b ≤ q := by
  intro b
  induction b using Nat.strongRecOn with
  | ind b ih =>
    intro hb hbl
    rw [total_last hi 0 b (by omega)]
    set J := entryNums es (fun e => e.pos + e.len == b) with hJ
    have hinj := idOf_injOn hT hd b
    have hstep : ∀ j ∈ J, Real.exp (entryScore es j) * total hi 0 (posOf es j) ≤ Real.exp (entryScore es j) := by
      intro j hj
      obtain ⟨e, he, h1⟩ := mem_entryNums.1 hj
      simp only [beq_iff_eq] at h1
      have h0 := (hi e (List.mem_of_getElem? he)).1
      refine mul_le_of_le_one_right (Real.exp_pos _).le ?_
      rw [posOf_eq he]
      rcases Nat.eq_zero_or_pos e.pos with h | h
      · rw [h, total_self]
      · exact (ih _ (by omega) h (by omega)).trans hq
    refine (Finset.sum_le_sum hstep).trans ?_
    obtain ⟨c, hc⟩ : ∃ c, sentence[b - 1]? = some c := ⟨_, List.getElem?_eq_getElem (by omega)⟩
    have hw : ∀ j ∈ J, Real.exp (entryScore es j) = probOf vocab (idOf es j) := by
      intro j hj
      obtain ⟨e, he, _⟩ := mem_entryNums.1 hj
      rw [exp_entryScore hT he]
      simp [idOf, he]
    rw [Finset.sum_congr rfl hw, ← Finset.sum_image (f := fun i => probOf vocab i) hinj]
    refine le_trans ?_ (hs c)
    rw [← probOf_sum_filter, ← Finset.sum_filter]
    refine Finset.sum_le_sum_of_subset_of_nonneg ?_ (fun i _ _ => probOf_nonneg i)
    intro i hi'
    obtain ⟨j, hj, rfl⟩ := Finset.mem_image.1 hi'
    obtain ⟨e, he, h1⟩ := mem_entryNums.1 hj
    simp only [beq_iff_eq] at h1
    obtain ⟨t, ht, hv, _⟩ := tokenAt_value (hT e (List.mem_of_getElem? he))
    have hid : idOf es j = e.id := by simp [idOf, he]
    rw [Finset.mem_filter, Finset.mem_range, hid]
    refine ⟨(List.getElem?_eq_some_iff.1 ht).1, ?_⟩
    obtain ⟨h2, h3⟩ := hi e (List.mem_of_getElem? he)
    rw [ht, Option.map_some, Option.getD_some, hv, getLast_slice h2 h3, h1, hc]
    simp

end

/-- The number of nodes of a lattice. -/
theorem entries_le {F : Type} {es : List (Entry F)} {n L : Nat} (hd : es.Pairwise (fun a b => ¬ (a.pos = b.pos ∧ a.len = b.len)))
    (h : ∀ e ∈ es, e.pos < n ∧ 0 < e.len ∧ e.len ≤ L) : es.length ≤ n * L := by
  have hnd : (es.map fun e => (e.pos, e.len - 1)).Nodup := by
    rw [List.Nodup, List.pairwise_map]
    refine hd.imp_of_mem ?_
    intro a b ha hb hab heq
    simp only [Prod.mk.injEq] at heq
    have h1 := (h a ha).2.1
    have h2 := (h b hb).2.1
    exact hab ⟨heq.1, by omega⟩
  have hsub : (es.map fun e => (e.pos, e.len - 1)).toFinset ⊆ Finset.range n ×ˢ Finset.range L := by
    intro x hx
    obtain ⟨e, he, rfl⟩ := List.mem_map.1 (List.mem_toFinset.1 hx)
    obtain ⟨h1, h2, h3⟩ := h e he
    rw [Finset.mem_product, Finset.mem_range, Finset.mem_range]
    exact ⟨h1, by simp only; omega⟩
  have := Finset.card_le_card hsub
  rw [List.toFinset_card_of_nodup hnd, Finset.card_product, Finset.card_range, Finset.card_range, List.length_map] at this
  exact this

end Tokengeex

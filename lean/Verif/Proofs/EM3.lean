import Verif.Proofs.EM2
import Verif.Proofs.Digamma
import Verif.Props.Prune
/-
The M-step returns, and trainable vocabularies stay trainable.
-/
namespace Tokengeex
open Spec ScoreOps RealOps

namespace Pruner

theorem alternativeVocab_ge (vocab : List (ScoredToken ℝ)) (freqs : List ℝ) :
    ∀ t ∈ alternativeVocab vocab freqs, (1 / 2 : ℝ) ≤ t.score := by
  intro t ht
  obtain ⟨p, _, hp⟩ := List.mem_filterMap.1 ht
  by_cases h : (lt p.1 (threshold : ℝ) && !p.2.keep) = true
  · rw [if_pos h] at hp; simp at hp
  · rw [if_neg h] at hp
    simp only [Option.some.injEq] at hp
    rw [← hp]
    show (1 / 2 : ℝ) ≤ max p.1 threshold
    have : (threshold : ℝ) = 1 / 2 := by
      simp [threshold, div, RealOps.ofNat]
    rw [this]
    exact le_max_right _ _

theorem foldl_add_real (l : List ℝ) (a : ℝ) : l.foldl add a = a + l.sum := by
  induction l generalizing a with
  | nil => simp
  | cons x l ih =>
    rw [List.foldl_cons, ih, List.sum_cons]
    show a + x + l.sum = _
    ring

/-- The implemented digamma function, from 1/2 on. -/
noncomputable def dig (x : ℝ) : ℝ := if h : 1 / 2 ≤ x then (digamma_ok h).choose else 0

theorem dig_spec {x : ℝ} (h : 1 / 2 ≤ x) :
    (∀ fuel ≥ 8, digamma fuel x = .ok (dig x)) ∧ x - 1 / 2 ≤ Real.exp (dig x) ∧ Real.exp (dig x) < x - 1 / 4 := by
  unfold dig
  rw [dif_pos h]
  exact (digamma_ok h).choose_spec

theorem sum_exp_dig_lt : ∀ l : List ℝ, (∀ x ∈ l, (1 / 2 : ℝ) ≤ x) → 2 ≤ l.length →
    (l.map fun x => Real.exp (dig x - dig l.sum)).sum < 1 ∧ ∀ x ∈ l, dig x < dig l.sum := by
  intro l h h2
  have hsum : ∀ l : List ℝ, (∀ x ∈ l, (1 / 2 : ℝ) ≤ x) → (l.length : ℝ) / 2 ≤ l.sum ∧
      (l ≠ [] → (l.map fun x => Real.exp (dig x)).sum < l.sum - l.length / 4) := by
    intro l
    induction l with
    | nil => intro _; simp
    | cons x l ih =>
      intro h
      obtain ⟨h1, h2⟩ := ih (fun y hy => h y (List.mem_cons_of_mem _ hy))
      have hx := h x (List.mem_cons_self ..)
      obtain ⟨_, _, h3⟩ := dig_spec hx
      rw [List.sum_cons, List.length_cons, List.map_cons, List.sum_cons]
      push_cast
      refine ⟨by linarith, fun _ => ?_⟩
      by_cases hl : l = []
      · subst hl
        simp only [List.map_nil, List.sum_nil, List.length_nil, Nat.cast_zero]
        linarith
      · have := h2 hl
        linarith
  obtain ⟨h3, h4⟩ := hsum l h
  have hlen : (2 : ℝ) ≤ l.length := by exact_mod_cast h2
  have hne : l ≠ [] := by rintro rfl; simp at h2
  have h5 := h4 hne
  obtain ⟨_, h6, _⟩ := dig_spec (x := l.sum) (by linarith)
  have hlt : (l.map fun x => Real.exp (dig x)).sum < Real.exp (dig l.sum) := by linarith
  constructor
  · have : (l.map fun x => Real.exp (dig x - dig l.sum)) = (l.map fun x => Real.exp (dig x)).map (fun y => y / Real.exp (dig l.sum)) := by
      rw [List.map_map]
      apply List.map_congr_left
      intro x _
      simp [Real.exp_sub]
    rw [this, show (fun y => y / Real.exp (dig l.sum)) = (fun y => (Real.exp (dig l.sum))⁻¹ * y) by funext y; rw [div_eq_mul_inv, mul_comm]]
    rw [List.sum_map_mul_left, List.map_id', inv_mul_lt_iff₀ (Real.exp_pos _), mul_one]
    exact hlt
  · intro x hx
    rw [← Real.exp_lt_exp]
    refine lt_of_le_of_lt ?_ hlt
    exact List.single_le_sum (by
      intro y hy
      obtain ⟨z, _, rfl⟩ := List.mem_map.1 hy
      exact (Real.exp_pos _).le) _ (List.mem_map.2 ⟨x, hx, rfl⟩)

/-- The M-step returns, with a vocabulary of probabilities. -/
theorem mStep_ok {vocab : List (ScoredToken ℝ)} {freqs : List ℝ} (hl : freqs.length = vocab.length)
    (hk : 2 ≤ vocab.countP (·.keep)) :
    ∃ v, (∀ fuel ≥ 8, mStep (Model.from_ vocab) freqs fuel = .ok v) ∧ PrunedTo vocab v ∧
      (v.map fun t => Real.exp t.score).sum < 1 ∧ ∀ t ∈ v, t.score < 0 := by
  set alt := alternativeVocab vocab freqs with halt
  have hge := alternativeVocab_ge vocab freqs
  have hge' : ∀ x ∈ alt.map (·.score), (1 / 2 : ℝ) ≤ x := by
    intro x hx
    obtain ⟨t, ht, rfl⟩ := List.mem_map.1 hx
    exact hge t ht
  have hok : ∀ fuel ≥ 8, 2 ≤ alt.length → mStep (Model.from_ vocab) freqs fuel =
      .ok ((alt.zip (alt.map fun t => dig t.score - dig (alt.map (·.score)).sum)).map fun p => p.1.cloneWithScore p.2) := by
    intro fuel hf h2
    have hsum : (1 / 2 : ℝ) ≤ (alt.map (·.score)).sum := by
      have : ∀ l : List ℝ, (∀ x ∈ l, (1 / 2 : ℝ) ≤ x) → (l.length : ℝ) / 2 ≤ l.sum := by
        intro l
        induction l with
        | nil => simp
        | cons x l ih =>
          intro h
          have := ih (fun y hy => h y (List.mem_cons_of_mem _ hy))
          have := h x (List.mem_cons_self ..)
          rw [List.sum_cons, List.length_cons]
          push_cast
          linarith
      have h3 := this _ hge'
      have h4 : (2 : ℝ) ≤ ((alt.map (·.score)).length : ℝ) := by rw [List.length_map]; exact_mod_cast h2
      linarith
    unfold mStep
    rw [Model.vocabSize, Model.from_vocab, if_neg (by omega)]
    simp only
    rw [← halt, foldl_add_real, show (zero : ℝ) = 0 from rfl, zero_add, (dig_spec hsum).1 fuel hf]
    simp only [res_bind_ok]
    rw [mapM_ok_map _ (fun t => dig t.score - dig (alt.map (·.score)).sum) alt (by
      intro t ht
      rw [(dig_spec (hge t ht)).1 fuel hf]
      rfl)]
    simp only [res_bind_ok]
    rw [if_neg (by simp [TrainOps.isNan, TrainOps.isInfinite])]
    rfl
  have hlen2 : 2 ≤ alt.length := by
    obtain ⟨ids, old, h1, _, h3, h4, h5⟩ := alternativeVocab_spec vocab freqs 0 (by omega)
    have hp : PrunedTo vocab alt := by
      refine ⟨ids, old, h1.imp (fun h => by omega), by unfold EntriesAt; simpa using h3, h4, ?_⟩
      intro i t ht hkp
      by_contra hn
      have := (h5 i t (Nat.zero_le _) (by simpa using ht) hn).1
      rw [hkp] at this
      simp at this
    exact hk.trans (prunedTo_count hp)
  refine ⟨_, fun fuel hf => hok fuel hf hlen2, ?_, ?_, ?_⟩
  · obtain ⟨ids, old, h1, h2, h3, h4, _⟩ := mStep_facts (hok 8 (Nat.le_refl _) hlen2)
    refine ⟨ids, old, h1.imp (fun h => by omega), h2, h3, ?_⟩
    intro i t ht hkp
    by_contra hn
    have := (h4 i t ht hn).1
    rw [hkp] at this
    simp at this
  all_goals
    obtain ⟨h1, h2⟩ := sum_exp_dig_lt (alt.map (·.score)) hge' (by simpa using hlen2)
    have hz : (alt.zip (alt.map fun t => dig t.score - dig (alt.map (·.score)).sum)).map (fun p => p.1.cloneWithScore p.2) =
        alt.map (fun t => t.cloneWithScore (dig t.score - dig (alt.map (·.score)).sum)) := by
      rw [List.zip_map_right, List.map_map]
      generalize dig (alt.map (·.score)).sum = S
      clear_value alt
      clear * -
      induction alt with
      | nil => rfl
      | cons a alt ih =>
        rw [List.zip_cons_cons, List.map_cons, ih]
        rfl
    rw [hz]
  · rw [List.map_map]
    rw [List.map_map] at h1
    exact h1
  · intro t ht
    obtain ⟨u, hu, rfl⟩ := List.mem_map.1 ht
    have := h2 u.score (List.mem_map.2 ⟨u, hu, rfl⟩)
    show dig u.score - _ < 0
    linarith

/-- With a single token its new score is 0. -/
theorem mStep_single {t : ScoredToken ℝ} (hk : t.keep = true) (f : ℝ) :
    ∃ v, (∀ fuel ≥ 8, mStep (Model.from_ [t]) [f] fuel = .ok v) ∧ v = [t.cloneWithScore 0] := by
  have ha : alternativeVocab [t] [f] = [t.cloneWithScore (max f threshold)] := by
    simp [alternativeVocab, hk, TrainOps.max]
  have hx : (1 / 2 : ℝ) ≤ max f threshold := alternativeVocab_ge [t] [f] _ (by rw [ha]; exact List.mem_singleton.2 rfl)
  refine ⟨_, fun fuel hf => ?_, rfl⟩
  unfold mStep
  rw [Model.vocabSize, Model.from_vocab, if_neg (by simp), ha]
  simp only [List.map_cons, List.map_nil, foldl_add_real, List.sum_cons, List.sum_nil, add_zero]
  rw [show (zero : ℝ) + (t.cloneWithScore (max f threshold)).score = max f threshold from zero_add _, (dig_spec hx).1 fuel hf]
  simp only [res_bind_ok]
  rw [mapM_ok_map _ (fun _ => (0 : ℝ)) _ (by
    intro u hu
    rw [List.mem_singleton] at hu
    subst hu
    show (digamma fuel (max f threshold)).bind _ = _
    rw [(dig_spec hx).1 fuel hf]
    show Except.ok (dig (max f threshold) - dig (max f threshold)) = _
    rw [sub_self])]
  simp only [res_bind_ok]
  rw [if_neg (by simp [TrainOps.isNan, TrainOps.isInfinite])]
  rfl

end Pruner

variable {vocab w : List (ScoredToken ℝ)} {samples : List Str}

theorem prunedTo_noDuplicates {F : Type} {vocab w : List (ScoredToken F)} (h : PrunedTo vocab w) (hn : NoDuplicates vocab) : NoDuplicates w := by
  obtain ⟨ids, old, n1, e1, f1, _⟩ := h
  have hv : w.map (·.value) = old.map (·.value) := by
    clear e1 n1
    induction f1 with
    | nil => rfl
    | cons h1 _ ih => rw [List.map_cons, List.map_cons, ih, h1.1]
  unfold NoDuplicates at hn ⊢
  rw [hv, List.nodup_iff_injective_getElem]
  intro a b hab
  obtain ⟨a, ha⟩ := a
  obtain ⟨b, hb⟩ := b
  simp only [List.length_map] at ha hb
  simp only [List.getElem_map] at hab
  have hl := entriesAt_length e1
  have ha' : a < ids.length := by omega
  have hb' : b < ids.length := by omega
  have g1 := entriesAt_get e1 (List.getElem?_eq_getElem ha')
  have g2 := entriesAt_get e1 (List.getElem?_eq_getElem hb')
  rw [List.getElem?_eq_getElem ha] at g1
  rw [List.getElem?_eq_getElem hb] at g2
  obtain ⟨k1, k1'⟩ := List.getElem?_eq_some_iff.1 g1
  obtain ⟨k2, k2'⟩ := List.getElem?_eq_some_iff.1 g2
  have : ids[a] = ids[b] := by
    have := (List.nodup_iff_injective_getElem.1 hn) (a₁ := ⟨ids[a], by simpa using k1⟩) (a₂ := ⟨ids[b], by simpa using k2⟩) (by
      simp only [List.getElem_map]
      rw [k1', k2', hab])
    simpa using this
  have := (List.nodup_iff_injective_getElem.1 n1) (a₁ := ⟨a, ha'⟩) (a₂ := ⟨b, hb'⟩) this
  simpa using this

theorem prunedTo_value {F : Type} {vocab w : List (ScoredToken F)} (h : PrunedTo vocab w) {u : ScoredToken F} (hu : u ∈ w) :
    ∃ t ∈ vocab, t.value = u.value ∧ t.keep = u.keep := by
  obtain ⟨ids, old, n1, e1, f1, _⟩ := h
  obtain ⟨k, hk⟩ := List.mem_iff_getElem?.1 hu
  have hlt : k < old.length := by
    rw [f1.length_eq]
    exact (List.getElem?_eq_some_iff.1 hk).1
  have := forall₂_get f1 (List.getElem?_eq_getElem hlt) hk
  exact ⟨old[k], entriesAt_sub e1 (List.getElem_mem hlt), this.1.symm, this.2.symm⟩

theorem prunedTo_bytesKept {F : Type} {vocab w : List (ScoredToken F)} (h : PrunedTo vocab w) {bs : List UInt8}
    (hb : BytesKept vocab bs) : BytesKept w bs := by
  intro b hb'
  obtain ⟨t, ht, h1, h2⟩ := hb b hb'
  obtain ⟨u, hu, h3, h4⟩ := prunedTo_keep h ht h2
  exact ⟨u, hu, h3.trans h1, h4⟩

/-- A trainable vocabulary stays trainable. -/
theorem Spec.Trainable.prunedTo (ht : Trainable vocab samples) (h : PrunedTo vocab w) (hp : SubProbability w) :
    Trainable w samples := by
  refine ⟨prunedTo_noDuplicates h ht.nodup, ?_, ?_, hp, ?_, fun s hs => prunedTo_bytesKept h (ht.samples s hs)⟩
  · intro u hu
    obtain ⟨t, h1, h2, _⟩ := prunedTo_value h hu
    rw [← h2]
    exact ht.nonempty t h1
  · refine ht.several.trans ?_
    rw [List.countP_eq_length_filter, List.countP_eq_length_filter]
    have h1 : ((vocab.filter (·.keep)).map (·.value)).Nodup := ht.nodup.sublist (List.filter_sublist.map _)
    have h2 : (vocab.filter (·.keep)).map (·.value) ⊆ (w.filter (·.keep)).map (·.value) := by
      intro v hv
      obtain ⟨t, h3, rfl⟩ := List.mem_map.1 hv
      obtain ⟨h4, h5⟩ := List.mem_filter.1 h3
      obtain ⟨u, h6, h7, h8⟩ := prunedTo_keep h h4 h5
      exact List.mem_map.2 ⟨u, List.mem_filter.2 ⟨h6, h8⟩, h7⟩
    have := (List.subperm_of_subset h1 h2).length_le
    simpa using this
  · intro u hu
    obtain ⟨t, h1, h2, _⟩ := prunedTo_value h hu
    rw [← h2]
    exact prunedTo_bytesKept h (ht.tokens t h1)

theorem subProbability_entriesAt {ids : List Nat} (hn : ids.Nodup) (he : EntriesAt vocab ids w) (hp : SubProbability vocab) :
    SubProbability w := by
  unfold SubProbability at hp ⊢
  have : (w.map fun t => Real.exp t.score) = ids.map (probOf vocab) := by
    apply List.ext_getElem?
    intro k
    rw [List.getElem?_map, List.getElem?_map]
    by_cases hk : k < ids.length
    · have := entriesAt_get he (List.getElem?_eq_getElem hk)
      have hk' : k < w.length := by rw [← entriesAt_length he]; exact hk
      rw [List.getElem?_eq_getElem hk', List.getElem?_eq_getElem hk, Option.map_some, Option.map_some]
      rw [List.getElem?_eq_getElem hk'] at this
      simp [probOf, this]
    · have hl := entriesAt_length he
      rw [List.getElem?_eq_none (by omega), List.getElem?_eq_none (by omega)]
      rfl
  rw [this, ← List.sum_toFinset (probOf vocab) hn]
  refine le_trans ?_ hp
  rw [← probOf_sum]
  refine Finset.sum_le_sum_of_subset_of_nonneg ?_ (fun i _ _ => probOf_nonneg i)
  intro i hi
  rw [Finset.mem_range]
  exact entriesAt_lt he (List.mem_toFinset.1 hi)

theorem Spec.Trainable.two (h : Trainable vocab samples) : 2 ≤ vocab.length :=
  h.several.trans List.countP_le_length

theorem Spec.Trainable.covered (h : Trainable vocab samples) : ∀ s ∈ samples, BytesCovered vocab (enc s) := by
  intro s hs b hb
  obtain ⟨t, ht, e, _⟩ := h.samples s hs b hb
  exact ⟨t, ht, e⟩

theorem Spec.Trainable.wellFormed (h : Trainable vocab samples) : WellFormed vocab := by
  refine ⟨h.nodup, h.nonempty, ?_⟩
  intro t ht b hb
  obtain ⟨u, hu, e, _⟩ := h.tokens t ht b hb
  exact ⟨u, hu, e⟩

end Tokengeex

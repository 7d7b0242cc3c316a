import Verif.Proofs.Chance
import Verif.Spec.RealTraining
/-
C87: what `insert_probability` means.
-/
namespace Tokengeex
open Spec Generator ScoreOps RealOps
variable {F : Type} [TrainOps F]

open Classical in
/-- **C87** Draw the random numbers so that each is below `insert_probability` with chance `p`, independently of the others (`rnd c` is
the sequence of draws for the outcomes `c` of these comparisons).  Then the strings taken from the
samples of a chunk are independent of each other, within a sample and between samples: the chance that of any strings `T`
exactly the wanted ones are taken from each sample is the product of the chances for each string and sample, and a string is
left out of a sample with chance `(1 - p) ^ trials`, where `trials` is the number of places where it can be cut out of the
sample plus, for added and suggested tokens, the number of their matches that do not overlap.  (`n` coins are enough for all
the draws from some number on.) -/
theorem C87_independent (g : Generator F) (hg : [] ∉ g.addedTokens ++ g.suggestedTokens) (p : ℝ)
    (rnd : (Nat → Bool) → Nat → F) (hr : ∀ c k, lt (rnd c k) g.insertProbability = c k) (samples : List Str) :
    ∃ n₀, ∀ n, n₀ ≤ n → ∀ (T : Finset Str) (want : Nat → Str → Prop),
      chance p n (fun c => ∀ i taken, (chunkTokens g (rnd c) 0 samples)[i]? = some taken → ∀ t ∈ T, t ∈ taken ↔ want i t) =
      ∏ i : Fin samples.length, ∏ t ∈ T,
        if want i t then 1 - (1 - p) ^ trials g samples[i] t else (1 - p) ^ trials g samples[i] t := by
  obtain ⟨n₀, h⟩ := chunk_law g hg p rnd hr samples
  refine ⟨n₀, fun n hn T want => ?_⟩
  have := h n hn T fun i t b => ind (b = true ↔ want i t)
  refine Eq.trans ?_ (this.trans ?_)
  · have e : (fun i S => Coins.weight (fun t b => ind (b = true ↔ want i t)) T S) =
        fun i S => ind (∀ t ∈ T, t ∈ S ↔ want i t) :=
      funext fun i => funext fun S => weight_ind (fun t b => b ↔ want i t) T S
    simp only [e, list_indicator]
    rfl
  · rw [prod_mapIdx]
    refine Finset.prod_congr rfl fun i _ => Finset.prod_congr rfl fun t _ => ?_
    by_cases hw : want i t
    · rw [if_pos hw, ind_false (by simp [hw]), ind_true (by simp [hw]), mul_zero, zero_add, mul_one]
    · rw [if_neg hw, ind_true (by simp [hw]), ind_false (by simp [hw]), mul_zero, add_zero, mul_one]

/-- **C87** A single string and sample: it is taken with chance `1 - (1 - p) ^ trials`. -/
theorem C87_chance (g : Generator F) (hg : [] ∉ g.addedTokens ++ g.suggestedTokens) (p : ℝ)
    (rnd : (Nat → Bool) → Nat → F) (hr : ∀ c k, lt (rnd c k) g.insertProbability = c k) (samples : List Str) :
    ∃ n₀, ∀ n, n₀ ≤ n → ∀ (i : Nat) (sample t : Str), samples[i]? = some sample →
      chance p n (fun c => ∃ taken, (chunkTokens g (rnd c) 0 samples)[i]? = some taken ∧ t ∈ taken) =
      1 - (1 - p) ^ trials g sample t := by
  obtain ⟨n₀, h⟩ := chunk_law g hg p rnd hr samples
  refine ⟨n₀, fun n hn i sample t hi => ?_⟩
  have := h n hn {t} fun j _ b => ind (i = j → b = true)
  obtain ⟨hlt, hs⟩ := List.getElem?_eq_some_iff.1 hi
  refine Eq.trans ?_ (this.trans ?_)
  · have e : (fun j S => Coins.weight (fun _ b => ind (i = j → b = true)) {t} S) =
        fun j S => ind (∀ u ∈ ({t} : Finset Str), i = j → u ∈ S) :=
      funext fun j => funext fun S => weight_ind (fun _ b => i = j → b) {t} S
    simp only [e, list_indicator]
    show mean p n (fun c => ind _) = _
    congr 1
    funext c
    have hlt' : i < (chunkTokens g (rnd c) 0 samples).length := by rw [chunkTokens_length]; exact hlt
    refine ind_congr ⟨?_, ?_⟩
    · rintro ⟨S, h1, h2⟩ j S' h3 u hu rfl
      rw [h1] at h3
      rw [Finset.mem_singleton.1 hu, ← Option.some.inj h3]
      exact h2
    · intro h'
      exact ⟨_, List.getElem?_eq_getElem hlt', h' i _ (List.getElem?_eq_getElem hlt') t (Finset.mem_singleton_self t) rfl⟩
  · rw [prod_mapIdx, Finset.prod_eq_single (⟨i, hlt⟩ : Fin samples.length)]
    · rw [Finset.prod_singleton, ind_false (by simp), ind_true (by simp), mul_zero, zero_add, mul_one]
      simp [hs]
    · intro j _ hj
      have : ¬ i = j := fun h => hj (Fin.ext h.symm)
      rw [Finset.prod_singleton, ind_true (fun h => absurd h this), ind_true (fun h => absurd h this)]
      ring
    · intro h'
      exact absurd (Finset.mem_univ _) h'

/-- **C87** How often a string is counted for a chunk, on average: the sum over the samples of `1 - (1 - p) ^ trials`. -/
theorem C87_mean (g : Generator F) (hg : [] ∉ g.addedTokens ++ g.suggestedTokens) (p : ℝ)
    (rnd : (Nat → Bool) → Nat → F) (hr : ∀ c k, lt (rnd c k) g.insertProbability = c k) (samples : List Str) :
    ∃ n₀, ∀ n, n₀ ≤ n → ∀ t : Str,
      mean p n (fun c => ((chunkTokens g (rnd c) 0 samples).countP fun taken => decide (t ∈ taken) : Nat)) =
      (samples.map fun s => 1 - (1 - p) ^ trials g s t).sum := by
  obtain ⟨n₀, h⟩ := C87_chance g hg p rnd hr samples
  refine ⟨n₀, fun n hn t => ?_⟩
  simp only [countP_indicator, chunkTokens_length]
  rw [mean_sum]
  exact sum_map_range (fun s => 1 - (1 - p) ^ trials g s t) samples _ fun i s hi => h n hn i s t hi

/-- `"aab"` has two places for `"a"`; the added token `"aa"` can be cut out of `"aaa"` in two places and matches once more. -/
example : let g : Generator ℝ := Generator.new 2 (1 / 2) none none [['a', 'a']] []
    trials g ['a', 'a', 'b'] ['a'] = 2 ∧ trials g ['a', 'a', 'a'] ['a', 'a'] = 3 ∧ trials g ['b'] ['a'] = 0 ∧
    disjointPlaces ['a', 'a'] ['a', 'a', 'a'] = 1 ∧ places ['a', 'a'] ['a', 'a', 'a'] = 2 := by
  have h : disjointPlaces ['a', 'a'] ['a', 'a', 'a'] = 1 := by
    rw [← occurrences_eq_places _ (by simp)]
    decide +kernel
  refine ⟨?_, ?_, ?_, h, by decide +kernel⟩ <;> unfold trials
  · rw [if_pos ⟨by simp, show (enc ['a']).length ≤ 2 by decide +kernel, fun _ h => by cases h⟩,
      show (Generator.new 2 (1 / 2 : ℝ) none none [['a', 'a']] []).addedTokens ++
        (Generator.new 2 (1 / 2 : ℝ) none none [['a', 'a']] []).suggestedTokens = [['a', 'a']] from rfl,
      show List.count (['a'] : Str) [['a', 'a']] = 0 by decide, Nat.zero_mul]
    show ([places ['a'] ['a', 'a', 'b']]).sum + 0 = 2
    decide +kernel
  · rw [if_pos ⟨by simp, show (enc ['a', 'a']).length ≤ 2 by decide +kernel, fun _ h => by cases h⟩, h,
      show (Generator.new 2 (1 / 2 : ℝ) none none [['a', 'a']] []).addedTokens ++
        (Generator.new 2 (1 / 2 : ℝ) none none [['a', 'a']] []).suggestedTokens = [['a', 'a']] from rfl,
      show List.count (['a', 'a'] : Str) [['a', 'a']] = 1 by decide]
    show ([places ['a', 'a'] ['a', 'a', 'a']]).sum + 1 * 1 = 3
    decide +kernel
  · rw [if_pos ⟨by simp, show (enc ['a']).length ≤ 2 by decide +kernel, fun _ h => by cases h⟩,
      show (Generator.new 2 (1 / 2 : ℝ) none none [['a', 'a']] []).addedTokens ++
        (Generator.new 2 (1 / 2 : ℝ) none none [['a', 'a']] []).suggestedTokens = [['a', 'a']] from rfl,
      show List.count (['a'] : Str) [['a', 'a']] = 0 by decide, Nat.zero_mul]
    show ([places ['a'] ['b']]).sum + 0 = 0
    decide +kernel

/-- With real numbers and `insert_probability` one half: draws of 0 and 1/2.  `"a"` is taken from `"aab"` with chance 3/4. -/
example : ∃ n, chance (1 / 2) n (fun c => ∃ taken, (chunkTokens (Generator.new 2 (1 / 2 : ℝ) none none [['a', 'a']] [])
      (fun k => if c k then 0 else 1 / 2) 0 [['a', 'a', 'b'], ['a']])[0]? = some taken ∧ ['a'] ∈ taken) = 3 / 4 := by
  obtain ⟨n, h⟩ := C87_chance (Generator.new 2 (1 / 2 : ℝ) none none [['a', 'a']] []) (by simp [Generator.new]) (1 / 2)
    (fun c k => if c k then 0 else 1 / 2)
    (by
      intro c k
      cases c k <;> simp [Generator.new, ScoreOps.lt])
    [['a', 'a', 'b'], ['a']]
  refine ⟨n, (h n (le_refl n) 0 ['a', 'a', 'b'] ['a'] rfl).trans ?_⟩
  have : trials (Generator.new 2 (1 / 2 : ℝ) none none [['a', 'a']] []) ['a', 'a', 'b'] ['a'] = 2 := by
    unfold trials
    rw [if_pos ⟨by simp, show (enc ['a']).length ≤ 2 by decide +kernel, fun _ h => by cases h⟩]
    show ([places ['a'] ['a', 'a', 'b']]).sum + List.count (['a'] : Str) (([['a', 'a']] : List Str) ++ []) * _ = 2
    rw [show List.count (['a'] : Str) (([['a', 'a']] : List Str) ++ []) = 0 by decide, Nat.zero_mul]
    decide +kernel
  rw [this]
  norm_num

end Tokengeex

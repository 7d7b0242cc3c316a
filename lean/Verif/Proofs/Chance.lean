import Verif.Spec.Chance
import Verif.Proofs.Feed
import Verif.Props.GenerateBytes
import Mathlib.Algebra.BigOperators.Group.Finset.Basic
import Mathlib.Algebra.BigOperators.Fin
import Mathlib.Order.ConditionallyCompleteLattice.Basic
import Mathlib.Order.Lattice.Nat
import Mathlib.Tactic.Ring
/-
The joint law of what `feed` takes from the samples of a chunk.
-/
namespace Tokengeex
open Spec Generator ScoreOps RealOps

/-! ### Coins -/

namespace Coins

def tail (c : Nat → Bool) : Nat → Bool := fun k => c (k + 1)
def push (b : Bool) (c : Nat → Bool) : Nat → Bool := fun k => k.casesOn b c

theorem tail_push (b : Bool) (c : Nat → Bool) : tail (push b c) = c := rfl
theorem push_zero (b : Bool) (c : Nat → Bool) : push b c 0 = b := rfl

theorem mean_succ (p : ℝ) (n : Nat) (f : (Nat → Bool) → ℝ) :
    mean p (n + 1) f = p * mean p n (fun c => f (push true c)) + (1 - p) * mean p n (fun c => f (push false c)) := rfl

theorem mean_const (p : ℝ) (n : Nat) (r : ℝ) : mean p n (fun _ => r) = r := by
  induction n with
  | zero => rfl
  | succ n ih => rw [mean_succ, ih]; ring

theorem mean_mul (p : ℝ) (n : Nat) (r : ℝ) (f : (Nat → Bool) → ℝ) : mean p n (fun c => r * f c) = r * mean p n f := by
  induction n generalizing f with
  | zero => rfl
  | succ n ih => rw [mean_succ, mean_succ, ih, ih]; ring

theorem mean_add (p : ℝ) (n : Nat) (f f' : (Nat → Bool) → ℝ) :
    mean p n (fun c => f c + f' c) = mean p n f + mean p n f' := by
  induction n generalizing f f' with
  | zero => rfl
  | succ n ih => rw [mean_succ, mean_succ, mean_succ, ih, ih]; ring

/-- Up to `n` coins, until one shows `true`. -/
def tries : Nat → (Nat → Bool) → Bool × (Nat → Bool)
  | 0, c => (false, c)
  | n + 1, c => if c 0 then (true, tail c) else tries n (tail c)

theorem mean_tries (p : ℝ) (m : Nat) (h : Bool → (Nat → Bool) → ℝ) (a b : ℝ)
    (ha : ∀ n, m ≤ n → mean p n (h true) = a) (hb : ∀ n, m ≤ n → mean p n (h false) = b) :
    ∀ k n, k + m ≤ n → mean p n (fun c => h (tries k c).1 (tries k c).2) = (1 - (1 - p) ^ k) * a + (1 - p) ^ k * b := by
  intro k
  induction k with
  | zero =>
    intro n hn
    rw [pow_zero]
    show mean p n (h false) = _
    rw [hb n (by omega)]; ring
  | succ k ih =>
    intro n hn
    obtain ⟨n, rfl⟩ : ∃ n', n = n' + 1 := ⟨n - 1, by omega⟩
    rw [mean_succ]
    have h1 : (fun c => h (tries (k + 1) (push true c)).1 (tries (k + 1) (push true c)).2) = h true := rfl
    have h2 : (fun c => h (tries (k + 1) (push false c)).1 (tries (k + 1) (push false c)).2) =
        fun c => h (tries k c).1 (tries k c).2 := rfl
    rw [h1, h2, ha n (by omega), ih n (by omega)]
    ring

/-- A worker's actions for a sample: token and number of tries. -/
def runList : List (Str × Nat) → List Str → (Nat → Bool) → List Str × (Nat → Bool)
  | [], S, c => (S, c)
  | (t, n) :: acts, S, c => runList acts (if (tries n c).1 then insertSet S t else S) (tries n c).2

/-- All samples of a chunk. -/
def runChunk : List (List (Str × Nat)) → (Nat → Bool) → List (List Str)
  | [], _ => []
  | acts :: rest, c => (runList acts [] c).1 :: runChunk rest (runList acts [] c).2

def total (acts : List (Str × Nat)) (t : Str) : Nat := (acts.map fun a => if a.1 = t then a.2 else 0).sum
def draws (acts : List (Str × Nat)) : Nat := (acts.map (·.2)).sum

theorem mem_insertSet (S : List Str) (t u : Str) : u ∈ insertSet S t ↔ u ∈ S ∨ u = t := by
  unfold insertSet
  by_cases h : t ∈ S
  · rw [if_pos h]
    exact ⟨Or.inl, fun h' => h'.elim id (fun h' => h' ▸ h)⟩
  · rw [if_neg h, List.mem_append, List.mem_singleton]

open Classical in
/-- The mean weight of a token's fate. -/
noncomputable def fate (p : ℝ) (w : Str → Bool → ℝ) (acts : List (Str × Nat)) (S : List Str) (t : Str) : ℝ :=
  if t ∈ S then w t true else (1 - p) ^ total acts t * w t false + (1 - (1 - p) ^ total acts t) * w t true

theorem fate_step (p : ℝ) (w : Str → Bool → ℝ) (t : Str) (n : Nat) (acts : List (Str × Nat)) (S : List Str) (T : Finset Str) :
    ∏ u ∈ T, fate p w ((t, n) :: acts) S u =
      (1 - (1 - p) ^ n) * (∏ u ∈ T, fate p w acts (insertSet S t) u) + (1 - p) ^ n * ∏ u ∈ T, fate p w acts S u := by
  have hne : ∀ u, u ≠ t → fate p w ((t, n) :: acts) S u = fate p w acts S u ∧
      fate p w acts (insertSet S t) u = fate p w acts S u := by
    intro u hu
    unfold fate total
    rw [List.map_cons, List.sum_cons, if_neg (Ne.symm hu), zero_add]
    refine ⟨rfl, ?_⟩
    by_cases h : u ∈ S
    · rw [if_pos h, if_pos ((mem_insertSet ..).2 (Or.inl h))]
    · rw [if_neg h, if_neg]
      rw [mem_insertSet]
      exact fun h' => h'.elim h hu
  by_cases ht : t ∈ T
  · rw [← Finset.mul_prod_erase T _ ht, ← Finset.mul_prod_erase T (fate p w acts (insertSet S t)) ht,
      ← Finset.mul_prod_erase T (fate p w acts S) ht,
      Finset.prod_congr rfl fun u hu => (hne u (Finset.ne_of_mem_erase hu)).1,
      Finset.prod_congr rfl fun u hu => (hne u (Finset.ne_of_mem_erase hu)).2]
    have : fate p w ((t, n) :: acts) S t =
        (1 - (1 - p) ^ n) * fate p w acts (insertSet S t) t + (1 - p) ^ n * fate p w acts S t := by
      unfold fate total
      rw [List.map_cons, List.sum_cons, if_pos rfl]
      by_cases h : t ∈ S
      · rw [if_pos h, if_pos h, if_pos ((mem_insertSet ..).2 (Or.inl h))]; ring
      · rw [if_neg h, if_neg h, if_pos ((mem_insertSet ..).2 (Or.inr rfl)), pow_add]; ring
    rw [this]; ring
  · have hT : ∀ u ∈ T, u ≠ t := fun u hu h => ht (h ▸ hu)
    rw [Finset.prod_congr rfl fun u hu => (hne u (hT u hu)).1,
      Finset.prod_congr rfl fun u hu => (hne u (hT u hu)).2]
    ring

theorem mean_runList (p : ℝ) (w : Str → Bool → ℝ) (T : Finset Str) (h : List Str → (Nat → Bool) → ℝ) (m : Nat) (R : ℝ)
    (hh : ∀ S n, m ≤ n → mean p n (h S) = (∏ u ∈ T, fate p w [] S u) * R) :
    ∀ (acts : List (Str × Nat)) (S : List Str) (n : Nat), draws acts + m ≤ n →
      mean p n (fun c => h (runList acts S c).1 (runList acts S c).2) = (∏ u ∈ T, fate p w acts S u) * R := by
  intro acts
  induction acts with
  | nil =>
    intro S n hn
    exact hh S n (by simpa [draws] using hn)
  | cons a acts ih =>
    obtain ⟨t, k⟩ := a
    intro S n hn
    have hd : draws ((t, k) :: acts) = k + draws acts := rfl
    rw [hd] at hn
    have := mean_tries p (draws acts + m)
      (fun b c => h (runList acts (if b then insertSet S t else S) c).1 (runList acts (if b then insertSet S t else S) c).2)
      ((∏ u ∈ T, fate p w acts (insertSet S t) u) * R) ((∏ u ∈ T, fate p w acts S u) * R)
      (fun n hn => by simpa using ih (insertSet S t) n hn) (fun n hn => by simpa using ih S n hn) k n (by omega)
    rw [fate_step]
    refine Eq.trans ?_ (this.trans (by ring))
    rfl

open Classical in
/-- The product of the weights of what became of the tokens. -/
noncomputable def weight (w : Str → Bool → ℝ) (T : Finset Str) (S : List Str) : ℝ := ∏ u ∈ T, w u (decide (u ∈ S))

theorem fate_nil (p : ℝ) (w : Str → Bool → ℝ) (S : List Str) (T : Finset Str) :
    ∏ u ∈ T, fate p w [] S u = weight w T S := by
  unfold weight
  refine Finset.prod_congr rfl fun u _ => ?_
  unfold fate total
  by_cases h : u ∈ S
  · rw [if_pos h, decide_eq_true h]
  · rw [if_neg h, decide_eq_false h]
    simp

/-- The joint law of a chunk. -/
theorem mean_runChunk (p : ℝ) (T : Finset Str) : ∀ (chunk : List (List (Str × Nat))) (w : Nat → Str → Bool → ℝ) (n : Nat),
    (chunk.map draws).sum ≤ n →
    mean p n (fun c => ((runChunk chunk c).mapIdx fun i S => weight (w i) T S).prod) =
      (chunk.mapIdx fun i acts => ∏ u ∈ T, fate p (w i) acts [] u).prod := by
  intro chunk
  induction chunk with
  | nil =>
    intro w n _
    exact mean_const p n 1
  | cons acts chunk ih =>
    intro w n hn
    rw [List.map_cons, List.sum_cons] at hn
    rw [List.mapIdx_cons, List.prod_cons]
    have := mean_runList p (w 0) T
      (fun S c => weight (w 0) T S * ((runChunk chunk c).mapIdx fun i S => weight (w (i + 1)) T S).prod)
      (chunk.map draws).sum _
      (fun S n hn => by rw [mean_mul, ih (fun i => w (i + 1)) n hn, fate_nil]) acts [] n hn
    refine Eq.trans ?_ this
    congr 1
    funext c
    rw [runChunk, List.mapIdx_cons, List.prod_cons]

end Coins

/-! ### The worker in terms of coins -/

section
variable {F : Type} [TrainOps F]

/-- The coins that the draws from the `k`-th on amount to. -/
def coinsFrom (g : Generator F) (rnd : Nat → F) (k : Nat) : Nat → Bool := fun i => lt (rnd (k + i)) g.insertProbability

theorem coinsFrom_tail (g : Generator F) (rnd : Nat → F) (k : Nat) :
    Coins.tail (coinsFrom g rnd k) = coinsFrom g rnd (k + 1) := by
  funext i
  show lt (rnd (k + (i + 1))) _ = lt (rnd (k + 1 + i)) _
  rw [show k + (i + 1) = k + 1 + i by omega]

theorem tryInsert_coins (g : Generator F) (rnd : Nat → F) (t : Str) : ∀ (n : Nat) (S : List Str) (k : Nat),
    ((tryInsert g rnd t n (S, k)).1, coinsFrom g rnd (tryInsert g rnd t n (S, k)).2) =
      (if (Coins.tries n (coinsFrom g rnd k)).1 then insertSet S t else S, (Coins.tries n (coinsFrom g rnd k)).2) := by
  intro n
  induction n with
  | zero => intro S k; rfl
  | succ n ih =>
    intro S k
    rw [tryInsert, Coins.tries, coinsFrom_tail]
    have h0 : coinsFrom g rnd k 0 = lt (rnd k) g.insertProbability := rfl
    rw [h0]
    by_cases h : lt (rnd k) g.insertProbability = true
    · rw [if_pos h, if_pos h, if_pos rfl]
    · rw [if_neg h, if_neg h]
      exact ih S (k + 1)

theorem foldl_coins (g : Generator F) (rnd : Nat → F) : ∀ (acts : List (Str × Nat)) (S : List Str) (k : Nat),
    ((acts.foldl (fun st a => tryInsert g rnd a.1 a.2 st) (S, k)).1,
      coinsFrom g rnd (acts.foldl (fun st a => tryInsert g rnd a.1 a.2 st) (S, k)).2) =
      Coins.runList acts S (coinsFrom g rnd k) := by
  intro acts
  induction acts with
  | nil => intro S k; rfl
  | cons a acts ih =>
    obtain ⟨t, n⟩ := a
    intro S k
    rw [List.foldl_cons, Coins.runList]
    have h := tryInsert_coins g rnd t n S k
    rw [← (Prod.mk.inj h).1, ← (Prod.mk.inj h).2, ← ih]

theorem consider_eq (g : Generator F) (rnd : Nat → F) (st : List Str × Nat) (t : Str) :
    consider g rnd st t = tryInsert g rnd t (if g.allow.elim true (fun allow => allow t) then 1 else 0) st := by
  unfold consider
  by_cases h : (g.allow.elim true fun allow => allow t) = true
  · rw [if_pos h, if_pos h, tryInsert, tryInsert]
    by_cases h' : lt (rnd st.2) g.insertProbability = true
    · rw [if_pos h', if_pos h']
    · rw [if_neg h', if_neg h']
  · rw [if_neg h, if_neg h, tryInsert]

/-- What a worker does for a sample. -/
def actsOf (g : Generator F) (sample : Str) : List (Str × Nat) :=
  ((partsOf g sample).flatMap (candidates g.maxTokenLength)).map
      (fun t => (t, if g.allow.elim true (fun allow => allow t) then 1 else 0)) ++
    (g.addedTokens ++ g.suggestedTokens).map fun t => (t, occurrences t 0 sample)

theorem sampleTokens_coins (g : Generator F) (rnd : Nat → F) (k : Nat) (sample : Str) :
    ((sampleTokens g rnd k sample).1, coinsFrom g rnd (sampleTokens g rnd k sample).2) =
      Coins.runList (actsOf g sample) [] (coinsFrom g rnd k) := by
  have hparts : sampleTokens g rnd k sample = (g.addedTokens ++ g.suggestedTokens).foldl
      (fun st token => tryInsert g rnd token (occurrences token 0 sample) st)
      (((partsOf g sample).flatMap (candidates g.maxTokenLength)).foldl (consider g rnd) ([], k)) := by
    unfold sampleTokens partsOf
    cases g.split <;> rfl
  rw [← foldl_coins, actsOf, List.foldl_append, List.foldl_map, List.foldl_map, hparts]
  have : consider g rnd = fun st t => tryInsert g rnd t (if g.allow.elim true (fun allow => allow t) then 1 else 0) st :=
    funext fun st => funext fun t => consider_eq g rnd st t
  rw [this]

theorem chunkTokens_coins (g : Generator F) (rnd : Nat → F) : ∀ (samples : List Str) (k : Nat),
    chunkTokens g rnd k samples = Coins.runChunk (samples.map (actsOf g)) (coinsFrom g rnd k) := by
  intro samples
  induction samples with
  | nil => intro k; rfl
  | cons s samples ih =>
    intro k
    rw [chunkTokens, List.map_cons, Coins.runChunk]
    have h := sampleTokens_coins g rnd k s
    rw [← h]
    dsimp only
    rw [ih]


/-! ### Counting -/

omit [TrainOps F] in
theorem occurrences_skip (t : Str) (_ : t ≠ []) : ∀ (k : Nat) (s : Str), occurrences t k s = occurrences t 0 (s.drop k) := by
  intro k
  induction k with
  | zero => intro s; rfl
  | succ k ih =>
    intro s
    cases s with
    | nil => rw [List.drop_nil, occurrences, occurrences]
    | cons c s => rw [occurrences, ih, List.drop_succ_cons]

omit [TrainOps F] in
theorem occurrences_hit (t : Str) (ht : t ≠ []) (s : Str) (h : t <+: s) :
    occurrences t 0 s = 1 + occurrences t 0 (s.drop t.length) := by
  cases s with
  | nil => exact absurd (List.prefix_nil.1 h) ht
  | cons c s =>
    rw [occurrences, if_pos (List.isPrefixOf_iff_prefix.2 h), occurrences_skip t ht]
    obtain ⟨d, t, rfl⟩ := List.exists_cons_of_ne_nil ht
    rfl

omit [TrainOps F] in
theorem occurrences_miss (t : Str) (_ : t ≠ []) (s : Str) (h : ¬ t <+: s) :
    occurrences t 0 s = occurrences t 0 (s.drop 1) := by
  cases s with
  | nil => rfl
  | cons c s => rw [occurrences, if_neg (fun h' => h (List.isPrefixOf_iff_prefix.1 h'))]; rfl

omit [TrainOps F] in
theorem occurrences_drop (t : Str) (ht : t ≠ []) : ∀ (n : Nat) (s : Str), s.length ≤ n →
    (∀ k, occurrences t 0 (s.drop k) ≤ occurrences t 0 s) ∧
    (∀ j, j ≤ t.length → occurrences t 0 s ≤ 1 + occurrences t 0 (s.drop j)) := by
  intro n
  induction n with
  | zero =>
    intro s hs
    obtain rfl := List.length_eq_zero_iff.1 (Nat.le_zero.1 hs)
    simp
  | succ n ih =>
    intro s hs
    have hpos : 0 < t.length := List.length_pos_iff.2 ht
    have shorter : ∀ k, 0 < k → (s.drop k).length ≤ n := by
      intro k hk; rw [List.length_drop]; omega
    by_cases h : t <+: s
    · constructor
      · intro k
        by_cases hk0 : k = 0
        · subst hk0; exact le_refl _
        rw [occurrences_hit t ht s h]
        by_cases hk : t.length ≤ k
        · have := (ih (s.drop t.length) (shorter _ hpos)).1 (k - t.length)
          rw [List.drop_drop, show t.length + (k - t.length) = k by omega] at this
          omega
        · have := (ih (s.drop k) (shorter k (by omega))).2 (t.length - k) (by omega)
          rw [List.drop_drop, show k + (t.length - k) = t.length by omega] at this
          exact this
      · intro j hj
        by_cases hj0 : j = 0
        · subst hj0; rw [List.drop_zero]; omega
        rw [occurrences_hit t ht s h]
        have := (ih (s.drop j) (shorter j (by omega))).1 (t.length - j)
        rw [List.drop_drop, show j + (t.length - j) = t.length by omega] at this
        omega
    · constructor
      · intro k
        by_cases hk0 : k = 0
        · subst hk0; exact le_refl _
        rw [occurrences_miss t ht s h]
        have := (ih (s.drop 1) (shorter 1 (by omega))).1 (k - 1)
        rwa [List.drop_drop, show 1 + (k - 1) = k by omega] at this
      · intro j hj
        by_cases hj0 : j = 0
        · subst hj0; rw [List.drop_zero]; omega
        rw [occurrences_miss t ht s h]
        have := (ih (s.drop 1) (shorter 1 (by omega))).2 (j - 1) (by omega)
        rwa [List.drop_drop, show 1 + (j - 1) = j by omega] at this

omit [TrainOps F] in
theorem occurrences_cut (t : Str) (ht : t ≠ []) : ∀ (n : Nat) (s : Str), s.length ≤ n →
    ∃ gaps : List Str, gaps.length = occurrences t 0 s + 1 ∧ s = t.intercalate gaps := by
  intro n
  induction n with
  | zero =>
    intro s hs
    obtain rfl := List.length_eq_zero_iff.1 (Nat.le_zero.1 hs)
    refine ⟨[[]], ?_, rfl⟩
    rw [occurrences, if_neg ht]; rfl
  | succ n ih =>
    intro s hs
    have hpos : 0 < t.length := List.length_pos_iff.2 ht
    by_cases h : t <+: s
    · obtain ⟨gaps, h1, h2⟩ := ih (s.drop t.length) (by rw [List.length_drop]; omega)
      refine ⟨[] :: gaps, by rw [occurrences_hit t ht s h, List.length_cons, h1]; omega, ?_⟩
      obtain ⟨g0, gaps, rfl⟩ := List.exists_cons_of_length_pos (l := gaps) (by omega)
      rw [List.intercalate_cons_cons, ← h2, List.nil_append]
      obtain ⟨r, rfl⟩ := h
      simp
    · cases s with
      | nil => exact ⟨[[]], by rw [occurrences, if_neg ht]; rfl, rfl⟩
      | cons c s =>
        obtain ⟨gaps, h1, h2⟩ := ih s (by simpa using hs)
        obtain ⟨g0, gaps, rfl⟩ := List.exists_cons_of_length_pos (l := gaps) (by omega)
        refine ⟨(c :: g0) :: gaps, by rw [occurrences_miss t ht _ h]; exact h1, ?_⟩
        rw [h2]
        cases gaps with
        | nil => simp
        | cons g1 gaps => rw [List.intercalate_cons_cons, List.intercalate_cons_cons]; rfl

omit [TrainOps F] in
theorem occurrences_max (t : Str) (ht : t ≠ []) : ∀ (gaps : List Str), gaps.length ≤ occurrences t 0 (t.intercalate gaps) + 1 := by
  intro gaps
  induction gaps with
  | nil => simp
  | cons g0 gaps ih =>
    cases gaps with
    | nil => simp
    | cons g1 gaps =>
      rw [List.intercalate_cons_cons]
      have h1 := (occurrences_drop t ht _ (g0 ++ (t ++ t.intercalate (g1 :: gaps))) (le_refl _)).1 g0.length
      rw [List.drop_left, occurrences_hit t ht _ (List.prefix_append _ _), List.drop_left] at h1
      rw [List.length_cons]
      simp only [List.append_assoc] at h1 ⊢
      omega

omit [TrainOps F] in
/-- `match_indices` finds as many matches as can be found without overlap. -/
theorem occurrences_eq_places (t : Str) (ht : t ≠ []) (s : Str) : occurrences t 0 s = disjointPlaces t s := by
  unfold disjointPlaces
  symm
  refine IsGreatest.csSup_eq ⟨occurrences_cut t ht _ s (le_refl _), ?_⟩
  rintro n ⟨gaps, h1, rfl⟩
  have := occurrences_max t ht gaps
  omega

theorem total_append (a b : List (Str × Nat)) (t : Str) : Coins.total (a ++ b) t = Coins.total a t + Coins.total b t := by
  unfold Coins.total
  rw [List.map_append, List.sum_append]

theorem total_map (f : Str → Nat) (l : List Str) (t : Str) : Coins.total (l.map fun u => (u, f u)) t = l.count t * f t := by
  unfold Coins.total
  induction l with
  | nil => simp
  | cons u l ih =>
    rw [List.map_cons, List.map_cons, List.sum_cons, ih, List.count_cons]
    by_cases h : u = t
    · subst h; simp; ring
    · simp [h]

theorem total_actsOf (g : Generator F) (h : [] ∉ g.addedTokens ++ g.suggestedTokens) (sample t : Str) :
    Coins.total (actsOf g sample) t = trials g sample t := by
  unfold actsOf trials
  rw [total_append, total_map, total_map]
  congr 1
  · by_cases hc : t ≠ [] ∧ (enc t).length ≤ g.maxTokenLength ∧ ∀ allow, g.allow = some allow → allow t = true
    · rw [if_pos hc, if_pos ((allow_iff g t).2 hc.2.2), Nat.mul_one, List.count_flatMap]
      congr 1
      refine List.map_congr_left fun part _ => ?_
      exact count_candidates _ t hc.1 hc.2.1 part
    · rw [if_neg hc]
      by_cases ha : g.allow.elim true (fun allow => allow t) = true
      · rw [if_pos ha, Nat.mul_one, List.count_eq_zero]
        intro hin
        obtain ⟨part, _, hp⟩ := List.mem_flatMap.1 hin
        obtain ⟨h1, _, h3⟩ := (mem_candidates ..).1 hp
        exact hc ⟨h1, h3, (allow_iff g t).1 ha⟩
      · rw [if_neg ha, Nat.mul_zero]
  · by_cases ht : t ∈ g.addedTokens ++ g.suggestedTokens
    · rw [occurrences_eq_places t (fun h' => h (h' ▸ ht))]
    · rw [List.count_eq_zero.2 ht, Nat.zero_mul, Nat.zero_mul]


/-! ### Joint law -/

open Classical in
/-- One if the proposition holds, zero if not. -/
noncomputable def ind (P : Prop) : ℝ := if P then 1 else 0

omit [TrainOps F] in
theorem ind_congr {P Q : Prop} (h : P ↔ Q) : ind P = ind Q := by rw [propext h]
omit [TrainOps F] in
theorem ind_true {P : Prop} (h : P) : ind P = 1 := if_pos h
omit [TrainOps F] in
theorem ind_false {P : Prop} (h : ¬ P) : ind P = 0 := if_neg h

omit [TrainOps F] in
theorem prod_indicator (T : Finset Str) (P : Str → Prop) : (∏ t ∈ T, ind (P t)) = ind (∀ t ∈ T, P t) := by
  by_cases h : ∀ t ∈ T, P t
  · rw [ind_true h]
    exact Finset.prod_eq_one fun t ht => ind_true (h t ht)
  · rw [ind_false h]
    push Not at h
    obtain ⟨t, ht, hP⟩ := h
    exact Finset.prod_eq_zero ht (ind_false hP)

omit [TrainOps F] in
theorem list_indicator {α : Type} : ∀ (l : List α) (P : Nat → α → Prop),
    (l.mapIdx fun i x => ind (P i x)).prod = ind (∀ i x, l[i]? = some x → P i x) := by
  intro l
  induction l with
  | nil => intro P; rw [ind_true (by simp)]; rfl
  | cons x l ih =>
    intro P
    rw [List.mapIdx_cons, List.prod_cons, ih (fun i => P (i + 1))]
    by_cases h0 : P 0 x
    · rw [ind_true h0, one_mul]
      refine ind_congr ⟨fun h i y hy => ?_, fun h i y hy => h (i + 1) y hy⟩
      cases i with
      | zero => obtain rfl : x = y := by simpa using hy
                exact h0
      | succ i => exact h i y hy
    · rw [ind_false h0, zero_mul, ind_false]
      exact fun h => h0 (h 0 x rfl)

omit [TrainOps F] in
theorem mapIdx_of_map {α β γ : Type} (f : α → β) : ∀ (l : List α) (h : Nat → β → γ),
    (l.map f).mapIdx h = l.mapIdx fun i x => h i (f x) := by
  intro l
  induction l with
  | nil => intro h; rfl
  | cons x l ih => intro h; rw [List.map_cons, List.mapIdx_cons, List.mapIdx_cons, ih]

omit [TrainOps F] in
theorem prod_mapIdx {α : Type} : ∀ (l : List α) (h : Nat → α → ℝ), (l.mapIdx h).prod = ∏ i : Fin l.length, h i l[i] := by
  intro l
  induction l with
  | nil => intro h; rfl
  | cons x l ih =>
    intro h
    rw [List.mapIdx_cons, List.prod_cons, ih]
    exact (Fin.prod_univ_succ fun i : Fin (l.length + 1) => h i (x :: l)[i]).symm

omit [TrainOps F] in
theorem mean_sum {ι : Type} (p : ℝ) (n : Nat) (I : Finset ι) (f : ι → (Nat → Bool) → ℝ) :
    mean p n (fun c => ∑ i ∈ I, f i c) = ∑ i ∈ I, mean p n (f i) := by
  classical
  induction I using Finset.induction_on with
  | empty => exact Coins.mean_const p n 0
  | insert a I ha ih =>
    rw [Finset.sum_insert ha, ← ih, ← Coins.mean_add]
    congr 1
    funext c
    rw [Finset.sum_insert ha]

omit [TrainOps F] in
theorem weight_ind (P : Str → Prop → Prop) (T : Finset Str) (S : List Str) :
    Coins.weight (fun t b => ind (P t (b = true))) T S = ind (∀ t ∈ T, P t (t ∈ S)) := by
  unfold Coins.weight
  rw [← prod_indicator]
  refine Finset.prod_congr rfl fun t _ => ind_congr ?_
  rw [decide_eq_true_iff]

omit [TrainOps F] in
theorem countP_indicator {α : Type} (P : α → Prop) [DecidablePred P] (l : List α) :
    ((l.countP (fun x => decide (P x)) : Nat) : ℝ) = ∑ i ∈ Finset.range l.length, ind (∃ x, l[i]? = some x ∧ P x) := by
  induction l with
  | nil => simp
  | cons x l ih =>
    rw [List.length_cons, Finset.sum_range_succ', List.countP_cons]
    push_cast
    rw [ih]
    congr 1
    by_cases h : P x
    · rw [ind_true ⟨x, rfl, h⟩, if_pos (decide_eq_true h)]
    · rw [ind_false, if_neg (by simp [h])]
      rintro ⟨y, hy, h'⟩
      obtain rfl : x = y := by simpa using hy
      exact h h'

omit [TrainOps F] in
theorem sum_map_range {α : Type} (f : α → ℝ) (l : List α) (h : Nat → ℝ) (hh : ∀ i x, l[i]? = some x → h i = f x) :
    ∑ i ∈ Finset.range l.length, h i = (l.map f).sum := by
  induction l generalizing h with
  | nil => simp
  | cons x l ih =>
    rw [List.length_cons, Finset.sum_range_succ', List.map_cons, List.sum_cons, hh 0 x rfl,
      ih (fun i => h (i + 1)) (fun i y hy => hh (i + 1) y hy), add_comm]

theorem chunkTokens_length (g : Generator F) (rnd : Nat → F) : ∀ (samples : List Str) (k : Nat),
    (chunkTokens g rnd k samples).length = samples.length := by
  intro samples
  induction samples with
  | nil => intro k; rfl
  | cons s samples ih => intro k; rw [chunkTokens, List.length_cons, List.length_cons, ih]

theorem chunk_law (g : Generator F) (h : [] ∉ g.addedTokens ++ g.suggestedTokens) (p : ℝ) (rnd : (Nat → Bool) → Nat → F)
    (hr : ∀ c k, lt (rnd c k) g.insertProbability = c k) (samples : List Str) : ∃ n₀, ∀ n, n₀ ≤ n → ∀ (T : Finset Str)
    (w : Nat → Str → Bool → ℝ),
    mean p n (fun c => ((chunkTokens g (rnd c) 0 samples).mapIdx fun i S => Coins.weight (w i) T S).prod) =
      (samples.mapIdx fun i s => ∏ t ∈ T, ((1 - p) ^ trials g s t * w i t false + (1 - (1 - p) ^ trials g s t) * w i t true)).prod := by
  refine ⟨((samples.map (actsOf g)).map Coins.draws).sum, fun n hn T w => ?_⟩
  have := Coins.mean_runChunk p T (samples.map (actsOf g)) w n hn
  have hc : ∀ c, coinsFrom g (rnd c) 0 = c := by
    intro c; funext i
    unfold coinsFrom
    rw [hr, Nat.zero_add]
  simp only [chunkTokens_coins, hc]
  rw [this, mapIdx_of_map]
  congr 2
  funext i s
  refine Finset.prod_congr rfl fun t _ => ?_
  unfold Coins.fate
  rw [if_neg (List.not_mem_nil), total_actsOf g h]

end
end Tokengeex

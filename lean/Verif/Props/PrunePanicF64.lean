import Verif.Props.PrunePanic
import Verif.Props.BinaryHeap
import Verif.Proofs.PruneFuel
import Verif.Spec.LogF64
import Mathlib.Analysis.SpecialFunctions.Log.Deriv
/-
C104 for 64-bit floating-point numbers: with a logarithm that is rounded correctly, pruning panics on the corpus of
Props/PrunePanic.lean.
-/
namespace Tokengeex
open Spec

/-! ### Logarithms of small numbers -/

theorem log_two_near : |Real.log 2 - 69314718055994530941723 / 10 ^ 23| ≤ 1 / 10 ^ 19 := by
  have h := Real.abs_log_sub_add_sum_range_le (x := 1 / 2) (by norm_num [abs_of_pos]) 68
  have e : Real.log (1 - 1 / 2) = -Real.log 2 := by rw [show (1 : ℝ) - 1 / 2 = 2⁻¹ by norm_num, Real.log_inv]
  rw [e] at h
  rw [abs_le] at h ⊢
  norm_num [Finset.sum_range_succ, abs_of_pos] at h ⊢
  constructor <;> linarith [h.1, h.2]

theorem log_three_near : |Real.log 3 - 109861228866810969139525 / 10 ^ 23| ≤ 1 / 10 ^ 18 := by
  have h2 := log_two_near
  have h := Real.abs_log_sub_add_sum_range_le (x := 1 / 4) (by norm_num [abs_of_pos]) 33
  have e : Real.log (1 - 1 / 4) = Real.log 3 - 2 * Real.log 2 := by
    rw [show (1 : ℝ) - 1 / 4 = 3 / 2 ^ 2 by norm_num, Real.log_div (by norm_num) (by norm_num), Real.log_pow]; norm_num
  rw [e] at h
  rw [abs_le] at h h2 ⊢
  norm_num [Finset.sum_range_succ, abs_of_pos] at h h2 ⊢
  constructor <;> linarith [h.1, h.2, h2.1, h2.2]

/-! ### Nearest doubles -/

theorem real_of_units (q e : Nat) (he : e ≤ 1074) : real (.num false (q * 2 ^ e)) = (q : ℝ) * (1 / 2) ^ (1074 - e) := by
  have key : ∀ N : Nat, e ≤ N → ((q * 2 ^ e : Nat) : ℝ) * (1 / 2) ^ N = (q : ℝ) * (1 / 2) ^ (N - e) := by
    intro N hN
    have e1 : (1 / 2 : ℝ) ^ N = (1 / 2) ^ e * (1 / 2) ^ (N - e) := by rw [← pow_add]; congr 1; omega
    rw [Nat.cast_mul, Nat.cast_pow, Nat.cast_ofNat, e1, mul_assoc, ← mul_assoc ((2 : ℝ) ^ e), ← mul_pow]
    norm_num
  simpa only [real, Bool.false_eq_true, if_false] using key _ he

/-- A double with 53 significant bits that is less than half a unit away from a number is the only double nearest to it. -/
theorem nearest_unique {q e : Nat} (hq : 2 ^ 52 < q) (hq' : q < 2 ^ 53) (he : e ≤ 1074) {L : ℝ}
    (hL : |(q : ℝ) * (1 / 2) ^ (1074 - e) - L| < (1 / 2) ^ (1074 - e) / 2)
    {y : F64} (hy : Spec.Finite y) (hnear : |real y - L| ≤ |real (.num false (q * 2 ^ e)) - L|) : y = .num false (q * 2 ^ e) := by
  rw [real_of_units q e he] at hnear
  have hd : |real y - (q : ℝ) * (1 / 2) ^ (1074 - e)| < (1 / 2) ^ (1074 - e) := by
    have h1 := abs_sub_le (real y) L ((q : ℝ) * (1 / 2) ^ (1074 - e))
    rw [abs_sub_comm L] at h1
    linarith
  cases y with
  | nan => exact absurd hy (by simp [Spec.Finite])
  | inf s => exact absurd hy (by simp [Spec.Finite])
  | num s n =>
    obtain ⟨m, k, hm, _, rfl⟩ := hy
    have hpos : (0 : ℝ) < (1 / 2) ^ (1074 - e) := by positivity
    have hq0 : (2 : ℝ) ≤ (q : ℝ) := by
      have : 2 ≤ q := by omega
      exact_mod_cast this
    cases s with
    | true =>
      exfalso
      have hneg : real (.num true (m * 2 ^ k)) ≤ 0 := by
        simp only [real, if_true]
        have : (0 : ℝ) ≤ ((m * 2 ^ k : Nat) : ℝ) := Nat.cast_nonneg _
        have h2 : ∀ N : Nat, -((m * 2 ^ k : Nat) : ℝ) * (1 / 2) ^ N ≤ 0 := fun N => by
          have : (0 : ℝ) < (1 / 2) ^ N := by positivity
          nlinarith
        exact h2 _
      rw [abs_lt] at hd
      nlinarith [hd.1]
    | false =>
      -- the distance in units
      have hint : |((m * 2 ^ k : Nat) : ℝ) - ((q * 2 ^ e : Nat) : ℝ)| < ((2 ^ e : Nat) : ℝ) := by
        have e1 : ∀ N : Nat, e ≤ N → |((m * 2 ^ k : Nat) : ℝ) * (1 / 2) ^ N - (q : ℝ) * (1 / 2) ^ (N - e)| < (1 / 2) ^ (N - e) →
            |((m * 2 ^ k : Nat) : ℝ) - ((q * 2 ^ e : Nat) : ℝ)| < ((2 ^ e : Nat) : ℝ) := by
          intro N hN h
          have hp : (0 : ℝ) < (1 / 2) ^ N := by positivity
          have e2 : (1 / 2 : ℝ) ^ (N - e) = (2 : ℝ) ^ e * (1 / 2) ^ N := by
            have : (1 / 2 : ℝ) ^ N = (1 / 2) ^ e * (1 / 2) ^ (N - e) := by rw [← pow_add]; congr 1; omega
            rw [this, ← mul_assoc, ← mul_pow]; norm_num
          rw [e2, ← mul_assoc, ← sub_mul, abs_mul, abs_of_pos hp] at h
          have := lt_of_mul_lt_mul_right h hp.le
          push_cast at this ⊢
          exact this
        refine e1 _ he ?_
        simpa only [real, Bool.false_eq_true, if_false] using hd
      have hnat : m * 2 ^ k < q * 2 ^ e + 2 ^ e ∧ q * 2 ^ e < m * 2 ^ k + 2 ^ e := by
        rw [abs_lt] at hint
        constructor
        · have : ((m * 2 ^ k : Nat) : ℝ) < ((q * 2 ^ e + 2 ^ e : Nat) : ℝ) := by rw [Nat.cast_add]; linarith [hint.2]
          exact_mod_cast this
        · have : ((q * 2 ^ e : Nat) : ℝ) < ((m * 2 ^ k + 2 ^ e : Nat) : ℝ) := by rw [Nat.cast_add]; linarith [hint.1]
          exact_mod_cast this
      obtain ⟨h1, h2⟩ := hnat
      have hk : e ≤ k := by
        by_contra hk
        obtain ⟨d, rfl⟩ : ∃ d, e = k + 1 + d := ⟨e - (k + 1), by omega⟩
        have hp : 0 < 2 ^ (k + 1 + d) := Nat.two_pow_pos _
        have h3 : 2 ^ 52 * 2 ^ (k + 1 + d) + 2 ^ (k + 1 + d) ≤ q * 2 ^ (k + 1 + d) := by
          rw [← Nat.succ_mul]; exact Nat.mul_le_mul_right _ hq
        have h4 : m * 2 ^ k < 2 ^ 53 * 2 ^ k := Nat.mul_lt_mul_of_pos_right hm (Nat.two_pow_pos _)
        have h5 : 2 ^ 53 * 2 ^ k ≤ 2 ^ 52 * 2 ^ (k + 1 + d) := by
          rw [← pow_add, ← pow_add]
          exact Nat.pow_le_pow_right (by norm_num) (by omega)
        omega
      obtain ⟨d, rfl⟩ : ∃ d, k = e + d := ⟨k - e, by omega⟩
      have hp : 0 < 2 ^ e := Nat.two_pow_pos _
      have e3 : m * 2 ^ (e + d) = m * 2 ^ d * 2 ^ e := by rw [pow_add]; ring
      rw [e3] at h1 h2 ⊢
      rw [← Nat.succ_mul] at h1
      have h1' := Nat.lt_of_mul_lt_mul_right h1
      rw [← Nat.succ_mul] at h2
      have h2' := Nat.lt_of_mul_lt_mul_right h2
      have : m * 2 ^ d = q := by omega
      rw [this]

/-! ### The values of the logarithm -/

section
variable [Elementary]

omit [Elementary] in
theorem finite_units {m k : Nat} (hm : m < 2 ^ 53) (hk : k ≤ 2045) (s : Bool) : Spec.Finite (.num s (m * 2 ^ k)) := ⟨m, k, hm, hk, rfl⟩

theorem ln_value (L : LnRounded) {n q e : Nat} (hn : 0 < n) (hn' : n < 2 ^ 53) (hq : 2 ^ 52 < q) (hq' : q < 2 ^ 53) (he : e ≤ 1074)
    (h : |(q : ℝ) * (1 / 2) ^ (1074 - e) - Real.log n| < (1 / 2) ^ (1074 - e) / 2) :
    Elementary.ln (.num false (n * 2 ^ 1074)) = .num false (q * 2 ^ e) := by
  have hr : real (.num false (n * 2 ^ 1074)) = n := by rw [real_of_units n 1074 (le_refl _)]; simp
  obtain ⟨h1, h2⟩ := L _ (finite_units (k := 1074) hn' (by norm_num) false) (by rw [hr]; exact_mod_cast hn)
  rw [hr] at h2
  exact nearest_unique hq hq' he h h1 (h2 _ (finite_units hq' (by omega) false))

theorem ln_one (L : LnRounded) : ∃ s, Elementary.ln (.num false (1 * 2 ^ 1074)) = .num s 0 := by
  have hr : real (.num false (1 * 2 ^ 1074)) = 1 := by rw [real_of_units 1 1074 (le_refl _)]; simp
  obtain ⟨h1, h2⟩ := L _ (finite_units (m := 1) (k := 1074) (by norm_num) (by norm_num) false) (by rw [hr]; norm_num)
  rw [hr, Real.log_one] at h2
  have h3 := h2 _ (finite_units (m := 0) (k := 0) (by norm_num) (by norm_num) false)
  have hz : real (.num false (0 * 2 ^ 0)) = 0 := by rw [real_of_units 0 0 (by norm_num)]; simp
  rw [hz] at h3
  simp only [sub_zero, abs_zero] at h3
  have h4 := abs_eq_zero.1 (le_antisymm h3 (abs_nonneg _))
  cases hx : Elementary.ln (.num false (1 * 2 ^ 1074)) with
  | nan => rw [hx] at h1; exact absurd h1 (by simp [Spec.Finite])
  | inf s => rw [hx] at h1; exact absurd h1 (by simp [Spec.Finite])
  | num s n =>
    rw [hx] at h4
    have key : ∀ N : Nat, (if s then -(n : ℝ) else n) * (1 / 2) ^ N = 0 → n = 0 := by
      intro N h
      have hp : ((1 / 2 : ℝ) ^ N) ≠ 0 := by positivity
      have := (mul_eq_zero.1 h).resolve_right hp
      cases s <;> simpa using this
    exact ⟨s, by rw [key _ h4]⟩

theorem ln_four (L : LnRounded) : Elementary.ln (.num false (4 * 2 ^ 1074)) = .num false (6243314768165359 * 2 ^ 1022) := by
  refine ln_value L (by norm_num) (by norm_num) (by norm_num) (by norm_num) (by norm_num) ?_
  have h := abs_le.1 log_two_near
  have e : Real.log ((4 : Nat) : ℝ) = 2 * Real.log 2 := by
    rw [show ((4 : Nat) : ℝ) = 2 ^ 2 by norm_num, Real.log_pow]; norm_num
  rw [e, abs_lt]
  norm_num at h ⊢
  constructor <;> linarith [h.1, h.2]

theorem ln_nine (L : LnRounded) : Elementary.ln (.num false (9 * 2 ^ 1074)) = .num false (4947709893870347 * 2 ^ 1023) := by
  refine ln_value L (by norm_num) (by norm_num) (by norm_num) (by norm_num) (by norm_num) ?_
  have h := abs_le.1 log_three_near
  have e : Real.log ((9 : Nat) : ℝ) = 2 * Real.log 3 := by
    rw [show ((9 : Nat) : ℝ) = 3 ^ 2 by norm_num, Real.log_pow]; norm_num
  rw [e, abs_lt]
  norm_num at h ⊢
  constructor <;> linarith [h.1, h.2]

theorem ln_twelve (L : LnRounded) : Elementary.ln (.num false (12 * 2 ^ 1074)) = .num false (5595512331017853 * 2 ^ 1023) := by
  refine ln_value L (by norm_num) (by norm_num) (by norm_num) (by norm_num) (by norm_num) ?_
  have h := abs_le.1 log_three_near
  have h' := abs_le.1 log_two_near
  have e : Real.log ((12 : Nat) : ℝ) = 2 * Real.log 2 + Real.log 3 := by
    rw [show ((12 : Nat) : ℝ) = 2 ^ 2 * 3 by norm_num, Real.log_mul (by norm_num) (by norm_num), Real.log_pow]; norm_num
  rw [e, abs_lt]
  norm_num at h h' ⊢
  constructor <;> linarith [h.1, h.2, h'.1, h'.2]

/-! ### Cutting the tokens -/

omit [Elementary] in
theorem populateNodes_zero {F : Type} [ScoreOps F] (h : ScoreOps.lt (ScoreOps.zero : F) ScoreOps.zero = false) (m : Model F) (l : Lattice F)
    (rnd rnd' : Nat → F) : m.populateNodes l ScoreOps.zero rnd = m.populateNodes l ScoreOps.zero rnd' := by
  have hs : ∀ r : Nat → F, Model.skipNode ScoreOps.zero r = fun _ k => (false, k) := by
    intro r; funext n k; simp [Model.skipNode, h]
  have hp : Model.populateNode m ScoreOps.zero rnd = Model.populateNode m ScoreOps.zero rnd' := by
    funext pos st c
    unfold Model.populateNode
    rw [hs rnd, hs rnd']
  unfold Model.populateNodes
  rw [hp]

omit [Elementary] in
/-- Neither the platform's functions nor random numbers play a part in cutting the tokens. -/
theorem segmentTokens_indep (E E' : Elementary) (heap : Heap F64) (m : Model F64) (rnd rnd' : Nat → F64) (fuel : Nat) :
    ∀ (ts : List (ScoredToken F64)) (st : Lattice F64 × VecPool),
    @Pruner.segmentTokens F64 (@F64.instTrainOpsOfElementary E) heap m rnd fuel ts st =
      @Pruner.segmentTokens F64 (@F64.instTrainOpsOfElementary E') heap m rnd' fuel ts st := by
  intro ts
  induction ts with
  | nil => intro st; rfl
  | cons t ts ih =>
    intro st
    unfold Pruner.segmentTokens
    simp only [ih]
    congr 1
    funext r
    exact congrArg (· >>= _) (populateNodes_zero (F := F64) (by decide) m r.1 rnd rnd')

/-- The score -1. -/
def minusOne : F64 := .num true (2 ^ 1074)

/-- The tokens `a`, `aa`, `b` and `c`, all with score -1. -/
def zeroLoss64 : List (ScoredToken F64) := zeroLoss minusOne minusOne minusOne minusOne

theorem zeroLoss64_segment (rnd : Nat → F64) :
    Pruner.segmentTokens (agendaHeap F64) (Model.from_ zeroLoss64) rnd 50 zeroLoss64 (Lattice.new, VecPool.withCapacity 32) =
      .ok [(true, []), (true, [0, 0]), (true, []), (true, [])] := by
  rw [segmentTokens_indep _ ⟨id, id⟩ _ _ rnd (fun _ => .nan)]
  decide +kernel

omit [Elementary] in
theorem zeroLoss64_encode : zeroLossTexts.mapM (fun s => (Model.from_ zeroLoss64).encode s (.num false 0) (fun _ => .num false 0)) =
    .ok zeroLossIds := by decide +kernel

theorem zeroLoss64_loss (L : LnRounded) : ∃ l, Pruner.lossOf (F := F64) 9 4 [3, 1, 5, 0] 1 [0, 0] = .ok l ∧ F64.isNormal l = false := by
  have o1 : F64.ofNat 1 = .num false (1 * 2 ^ 1074) := by decide +kernel
  have o9 : F64.ofNat 9 = .num false (9 * 2 ^ 1074) := by decide +kernel
  have o4 : F64.add (F64.ofNat 3) (F64.ofNat 1) = .num false (4 * 2 ^ 1074) := by decide +kernel
  have o12 : F64.add (F64.ofNat 9) (F64.mul (F64.ofNat 1) (F64.ofNat 3)) = .num false (12 * 2 ^ 1074) := by decide +kernel
  refine ⟨F64.mul (F64.div (F64.ofNat 1) (F64.ofNat 9)) (F64.sub (F64.sub (Elementary.ln (F64.ofNat 1)) (Elementary.ln (F64.ofNat 9)))
    (F64.add (F64.add (F64.ofNat 0)
      (F64.sub (Elementary.ln (F64.add (F64.ofNat 3) (F64.ofNat 1)))
        (Elementary.ln (F64.add (F64.ofNat 9) (F64.mul (F64.ofNat 1) (F64.ofNat 3))))))
      (F64.sub (Elementary.ln (F64.add (F64.ofNat 3) (F64.ofNat 1)))
        (Elementary.ln (F64.add (F64.ofNat 9) (F64.mul (F64.ofNat 1) (F64.ofNat 3))))))), rfl, ?_⟩
  obtain ⟨s, h1⟩ := ln_one L
  rw [o4, o12, o1, o9, h1, ln_four L, ln_nine L, ln_twelve L]
  cases s <;> decide +kernel

/-- **C104** is false for doubles: if the logarithm of the platform is rounded correctly, then with the tokens `a`, `aa`, `b` and
`c`, all with score -1, and a corpus of nine texts that can be encoded, a prune step panics, whatever its random numbers and the
division of the work, and however lists are sorted. -/
theorem C104_false_doubles (L : LnRounded) (c : Pruner F64) (byLoss : Sorter (Nat × F64)) (byScore : Sorter (ScoredToken F64)) :
    WellFormed zeroLoss64 ∧
    (∃ idss, zeroLossTexts.mapM (fun s => (Model.from_ zeroLoss64).encode s (.num false 0) (fun _ => .num false 0)) = .ok idss) ∧
    ∀ rnd freqs, Pruner.Frequencies (Model.from_ zeroLoss64) rnd zeroLossTexts freqs → ∀ fuel ≥ 50,
      Pruner.pruneVocab c ⟨agendaHeap F64, byLoss, byScore⟩ (Model.from_ zeroLoss64) rnd zeroLossTexts.length freqs fuel =
        .error .panic := by
  refine ⟨zeroLoss_wf _ _ _ _, ⟨_, zeroLoss64_encode⟩, ?_⟩
  intro rnd freqs hfr fuel hfuel
  have hids : zeroLossTexts.mapM (fun s => (Model.from_ zeroLoss64).encode s ScoreOps.zero rnd) = .ok zeroLossIds := by
    rw [← zeroLoss64_encode]
    refine congrArg (fun f => zeroLossTexts.mapM f) ?_
    funext s
    exact C06_deterministic zeroLoss64 s _ _ _ (by decide)
  obtain ⟨val, hval, hfv⟩ := hfr
  have hfreqs : freqs = [3, 1, 5, 0] := by
    have : freqs = (List.range zeroLoss64.length).map (tokenCount zeroLossIds) := by
      rw [hfv, Model.vocabSize, Model.from_vocab]
      refine List.map_congr_left (fun i hi => ?_)
      exact C50_tokens (Model.from_ zeroLoss64) _ zeroLossTexts zeroLossIds hids val hval i
        (by rw [Model.vocabSize, Model.from_vocab]; exact List.mem_range.1 hi)
    rw [this]
    decide
  subst hfreqs
  obtain ⟨k, rfl⟩ : ∃ k, fuel = 50 + k := ⟨fuel - 50, by omega⟩
  obtain ⟨l, hl, hn⟩ := zeroLoss64_loss L
  have hj : Pruner.judgeAll (F := F64) 9 4 [3, 1, 5, 0]
      (zeroLoss64.zipIdx.zip [(true, []), (true, [0, 0]), (true, []), (true, [])]) ([], []) = .error .panic := by
    refine Pruner.judgeAll_panic _ _ ⟨((⟨[97, 97], minusOne, false⟩, 1), (true, [0, 0])), by simp [zeroLoss64, zeroLoss], ?_⟩
    intro v hv
    rcases Pruner.judge_cases hv with ⟨q, _⟩ | ⟨_, f, hf, ⟨_, q, _⟩ | ⟨_, q, _⟩ | ⟨_, _, l', q, q', _⟩ | ⟨q, _⟩⟩
    · simp at q
    · simp at q
    · simp at q
    · simp only at q
      rw [hl] at q
      simp only [Except.ok.injEq] at q
      subst q
      have : F64.isNormal l = true := q'
      rw [hn] at this
      simp at this
    · simp at hf
      omega
  rw [Pruner.pruneVocab, Model.from_vocab, Pruner.segmentTokens_more k _ _ _ (zeroLoss64_segment rnd)]
  simp only [res_bind_ok]
  have hlen : zeroLossTexts.length = 9 := rfl
  rw [hlen, show ([(true, []), (true, [0, 0]), (true, []), (true, [])] : List (Bool × List Nat)).length = 4 from rfl, hj]
  rfl

/-- **C104** (prune, doubles) So `prune` without EM iterations, asked for fewer than four tokens, does not return from this vocabulary
and corpus. -/
theorem C104_prune_false_doubles (L : LnRounded) (c : Pruner F64) (hem : c.emSubiters = 0) (hsize : c.vocabSize < 4)
    (byLoss : Sorter (Nat × F64)) (byScore : Sorter (ScoredToken F64)) (m : Model F64) :
    ¬ Pruner.Returns c ⟨agendaHeap F64, byLoss, byScore⟩ zeroLossTexts (Model.from_ zeroLoss64) m := by
  rintro ⟨h1, h2⟩
  rcases Relation.ReflTransGen.cases_head h1 with rfl | ⟨m', ⟨_, m₁, he, rnd, freqs, v, fuel₀, hf, hv, _⟩, _⟩
  · exact h2 (by rw [Model.vocabSize, Model.from_vocab]; exact hsize)
  · rw [hem] at he
    cases he
    have hp := (C104_false_doubles L c byLoss byScore).2.2 rnd freqs hf (max fuel₀ 50) (by omega)
    have h1 := hv (max fuel₀ 50) (by omega)
    rw [hp] at h1
    simp at h1

end

/-! ### Non-vacuity -/

/-- There is a correctly rounded logarithm. -/
theorem lnRounded_exists : ∃ E : Elementary, @LnRounded E := by
  have hfin : {x : F64 | Spec.Finite x}.Finite := by
    have : {x : F64 | Spec.Finite x} ⊆
        (fun p : Bool × Nat × Nat => F64.num p.1 (p.2.1 * 2 ^ p.2.2)) '' (Set.univ ×ˢ (Set.Iio (2 ^ 53) ×ˢ Set.Iic 2045)) := by
      intro x hx
      cases x with
      | nan => exact absurd hx (by simp [Spec.Finite])
      | inf s => exact absurd hx (by simp [Spec.Finite])
      | num s n =>
        obtain ⟨m, k, hm, hk, rfl⟩ := hx
        exact ⟨(s, m, k), ⟨trivial, hm, hk⟩, rfl⟩
    exact ((Set.finite_univ.prod ((Set.finite_Iio _).prod (Set.finite_Iic _))).image _).subset this
  have hne : {x : F64 | Spec.Finite x}.Nonempty := ⟨.num false (0 * 2 ^ 0), finite_units (by norm_num) (by norm_num) false⟩
  have hmin : ∀ r : ℝ, ∃ v, Spec.Finite v ∧ ∀ y, Spec.Finite y → |real v - r| ≤ |real y - r| := by
    intro r
    obtain ⟨v, hv, h⟩ := Set.exists_min_image _ (fun y => |real y - r|) hfin hne
    exact ⟨v, hv, h⟩
  exact ⟨⟨id, fun x => (hmin (Real.log (real x))).choose⟩, fun x _ _ => (hmin (Real.log (real x))).choose_spec⟩

/-- With it, a prune step panics. -/
example : ∃ E : Elementary, ∃ freqs, @Pruner.Frequencies F64 _ (Model.from_ zeroLoss64) (fun _ => .nan) zeroLossTexts freqs ∧
    @Pruner.pruneVocab F64 (@F64.instTrainOpsOfElementary E) ⟨3, fun n => n / 2, 0, .num false 0⟩
      ⟨agendaHeap F64, insertSorter _, insertSorter _⟩ (Model.from_ zeroLoss64) (fun _ => .nan) 9 freqs 50 = .error .panic := by
  obtain ⟨E, hE⟩ := lnRounded_exists
  obtain ⟨freqs, hf⟩ := @Pruner.frequencies_exist F64 (@F64.instTrainOpsOfElementary E) zeroLoss64 (fun _ => .nan) zeroLossTexts
    (fun s hs => C04_dropout_total _ s _ _ (fun x hx => by
      have hall : ∀ s ∈ zeroLossTexts, ∀ x ∈ enc s, x = 97 ∨ x = 98 := by decide
      rcases hall s hs x hx with rfl | rfl
      · exact ⟨⟨[97], minusOne, true⟩, by simp [zeroLoss64, zeroLoss], rfl⟩
      · exact ⟨⟨[98], minusOne, true⟩, by simp [zeroLoss64, zeroLoss], rfl⟩))
  exact ⟨E, freqs, hf, (@C104_false_doubles E hE _ _ _).2.2 _ freqs hf 50 (le_refl _)⟩

end Tokengeex

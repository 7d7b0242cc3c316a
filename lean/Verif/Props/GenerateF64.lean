import Verif.Proofs.GenerateF64
/-
C97: vocabulary generation with doubles.
-/
namespace Tokengeex
open Spec Parallel ScoreOps RealOps Generator

variable [Elementary]

omit [Elementary] in
theorem F64.real_le_iff {x y : F64} (hx : Spec.Finite x) (hy : Spec.Finite y) : real x ≤ real y ↔ x.key ≤ y.key := by
  rw [F64.real_eq hx, F64.real_eq hy]
  constructor
  · intro h
    exact_mod_cast le_of_mul_le_mul_right h F64.ulp_pos
  · intro h
    exact mul_le_mul_of_nonneg_right (Int.cast_le.2 h) F64.ulp_pos.le

omit [Elementary] in
theorem sum_exp_near {α : Type} (f p : α → ℝ) {δ : ℝ} (hδ1 : δ ≤ 1) : ∀ l : List α, (∀ t ∈ l, 0 < p t ∧ |f t - Real.log (p t)| ≤ δ) →
    |(l.map fun t => Real.exp (f t)).sum - (l.map p).sum| ≤ 2 * δ * (l.map p).sum := by
  intro l
  induction l with
  | nil => simp
  | cons t l ih =>
    intro h
    obtain ⟨h1, h2⟩ := h t (by simp)
    have h3 := ih fun x hx => h x (by simp [hx])
    simp only [List.map_cons, List.sum_cons]
    have e : Real.exp (f t) = p t * Real.exp (f t - Real.log (p t)) := by
      rw [Real.exp_sub, Real.exp_log h1]
      field_simp
    have h4 := Real.abs_exp_sub_one_le (h2.trans hδ1)
    have h5 : |Real.exp (f t) - p t| ≤ 2 * δ * p t := by
      rw [e]
      have : p t * Real.exp (f t - Real.log (p t)) - p t = p t * (Real.exp (f t - Real.log (p t)) - 1) := by ring
      rw [this, abs_mul, abs_of_pos h1]
      nlinarith
    have e5 := abs_le.1 h5
    have e3 := abs_le.1 h3
    rw [abs_le]
    constructor <;> linarith

theorem ofNat_f64 (n : Nat) : (RealOps.ofNat n : F64) = F64.ofNat n := rfl

theorem logprobs_f64 (l : List (ScoredToken F64)) : logprobs l = l.map fun t =>
    { t with score := F64.sub (Elementary.ln t.score) (Elementary.ln ((l.map (·.score)).foldl F64.add (.num false 0))) } := by
  unfold logprobs
  rw [F64.foldl_score]
  rfl

/-- **C97** With doubles and a logarithm whose absolute error is at most `2^-40`, `generate` does not panic, in whatever
order the table is listed: if no count, and no count times length, exceeds `2^64`, no counted string has more than a
mebibyte, and at most `2^24` tokens are asked for.  Every score is finite and negative and within `2^-27` of the logarithm of
the token's share of the total weight, where a byte weighs the highest count and another token its count times its length;
the exponentials of the scores add up to 1 within `2^-26`; and if the logarithm never decreases, the vocabulary is sorted. -/
theorem C97_generate {ε : ℝ} (L : LnWithin ε) (hε : ε ≤ (1 / 2) ^ 40)
    (max' : Nat) (prob : F64) (split : Option (Str → List Str)) (allow : Option (Str → Bool))
    (added suggested fed : List Str) (g : Generator F64) (h : Fed max' prob split allow added suggested fed g)
    (byFreq : Sorter (Str × Nat)) (hf : SortLaws byFreq) (byScore : Sorter (ScoredToken F64)) (hs : SortLaws byScore)
    (size : Nat) (hsize : size ≤ 2 ^ 24)
    (hcount : ∀ s, frequency g s ≤ 2 ^ 64 ∧ frequency g s * (enc s).length ≤ 2 ^ 64)
    (hlong : ∀ s, 0 < frequency g s → (enc s).length ≤ 2 ^ 20)
    (entries : List (Str × Nat)) (hp : entries.Perm g.frequencies) :
    ∃ w, g.generateFrom byFreq byScore size entries = .ok w ∧
      (∀ t ∈ w, Spec.Finite t.score ∧ real t.score < 0) ∧
      (∃ (M : Nat) (weight : Token → Nat), HighestCount g M ∧ (∀ b : UInt8, weight [b] = M) ∧
        (∀ s, 1 < (enc s).length → weight (enc s) = frequency g s * (enc s).length) ∧
        ∀ t ∈ w, |real t.score - Real.log ((weight t.value : ℝ) / ((w.map fun t => weight t.value).sum : ℕ))| ≤ (1 / 2) ^ 27) ∧
      |(w.map fun t => Real.exp (real t.score)).sum - 1| ≤ (1 / 2) ^ 26 ∧
      (LnMonotone → ScoreSorted w) := by
  obtain ⟨M, weight, vocab, sorted, hM, hM0, hb, hw, hv, ⟨rest, hrest⟩, hlen, hrun, hperm, hgen⟩ :=
    generateFrom_weights h hf hs (size := size) hp
  obtain ⟨ks, hks⟩ : ∃ ks, ks = sorted.map fun t => weight t.value := ⟨_, rfl⟩
  have hv' : ∀ t ∈ sorted, 0 < weight t.value ∧ t.score = F64.ofNat (weight t.value) ∧
      ((∃ b, t.value = [b]) ∨ ∃ s, t.value = enc s ∧ 1 < (enc s).length ∧ 0 < frequency g s) := by
    intro t ht
    obtain ⟨e1, e2, e3⟩ := hv t (hperm.subset ht)
    rw [ofNat_f64] at e2
    exact ⟨e1, e2, e3⟩
  have hM64 : M ≤ 2 ^ 64 := by
    rcases hM.2 with ⟨s, _, e⟩ | ⟨e, _⟩
    · rw [← e]; exact (hcount s).1
    · rw [e]; exact Nat.one_le_two_pow
  have hwt : ∀ t ∈ sorted, weight t.value ≤ 2 ^ 64 ∧ weight t.value ≤ M * 2 ^ 20 := by
    intro t ht
    rcases (hv' t ht).2.2 with ⟨b, e⟩ | ⟨s, e, e1, e2⟩
    · rw [e, hb]; omega
    · rw [e, hw s e1]
      exact ⟨(hcount s).2, Nat.mul_le_mul (hM.1 s) (hlong s e2)⟩
  have hk : ∀ k ∈ ks, 0 < k ∧ k ≤ 2 ^ 64 := by
    intro k hk
    rw [hks] at hk
    obtain ⟨t, ht, rfl⟩ := List.mem_map.1 hk
    exact ⟨(hv' t ht).1, (hwt t ht).1⟩
  have hkl : ks.length ≤ 2 ^ 24 := by
    rw [hks, List.length_map, hperm.length_eq]
    omega
  have hscores : sorted.map (·.score) = ks.map F64.ofNat := by
    rw [hks, List.map_map]
    refine List.map_congr_left fun t ht => ?_
    rw [(hv' t ht).2.1, Function.comp_apply]
  obtain ⟨S, hS⟩ : ∃ S, S = (ks.map F64.ofNat).foldl F64.add (.num false 0) := ⟨_, rfl⟩
  have hlog : logprobs sorted = sorted.map fun t =>
      { t with score := F64.sub (Elementary.ln (F64.ofNat (weight t.value))) (Elementary.ln S) } := by
    rw [logprobs_f64, hscores, ← hS]
    refine List.map_congr_left fun t ht => ?_
    rw [(hv' t ht).2.1]
  have hall : ∀ t ∈ sorted, (Spec.Finite (F64.ofNat (weight t.value)) ∧ 0 < real (F64.ofNat (weight t.value)) ∧
        Spec.Finite S ∧ 0 < real S) ∧
      Spec.Finite (F64.sub (Elementary.ln (F64.ofNat (weight t.value))) (Elementary.ln S)) ∧
      |real (F64.sub (Elementary.ln (F64.ofNat (weight t.value))) (Elementary.ln S)) -
        Real.log ((weight t.value : ℝ) / (ks.sum : ℕ))| ≤ (1 / 2) ^ 27 := by
    intro t ht
    rw [hS]
    exact F64.logprob_err L hε ks hkl hk _ (by rw [hks]; exact List.mem_map.2 ⟨t, ht, rfl⟩)
  have herr := fun t ht => (hall t ht).2
  -- the total is well above any single weight
  have hbytes : ((bytes M : Acc F64).vocab.map fun t => weight t.value) = List.replicate 255 M := by
    rw [List.eq_replicate_iff]
    refine ⟨by simp [bytes], ?_⟩
    intro k hk'
    obtain ⟨t, ht, rfl⟩ := List.mem_map.1 hk'
    obtain ⟨b, _, rfl⟩ := (bytes_mem _ _).1 ht
    exact hb b
  have hsum : ks.sum = 255 * M + (rest.map fun t => weight t.value).sum := by
    have : ks.Perm (vocab.map fun t => weight t.value) := by rw [hks]; exact hperm.map _
    rw [this.sum_eq, hrest, List.map_append, List.sum_append, hbytes, List.sum_replicate, smul_eq_mul]
  have hgap : ∀ t ∈ sorted, weight t.value + 254 * M ≤ ks.sum := by
    intro t ht
    have ht' := hperm.subset ht
    rw [hrest, List.mem_append] at ht'
    rw [hsum]
    rcases ht' with ht' | ht'
    · obtain ⟨b, _, rfl⟩ := (bytes_mem _ _).1 ht'
      rw [hb]
      omega
    · have : weight t.value ≤ (rest.map fun t => weight t.value).sum :=
        List.le_sum_of_mem (List.mem_map.2 ⟨t, ht', rfl⟩)
      omega
  have hneg : ∀ t ∈ sorted, real (F64.sub (Elementary.ln (F64.ofNat (weight t.value))) (Elementary.ln S)) ≤ -(1 / 2) ^ 14 := by
    intro t ht
    have h1 := hgap t ht
    have h2 := (hwt t ht).2
    have h3 := (hv' t ht).1
    have r1 : (weight t.value : ℝ) + 254 * M ≤ (ks.sum : ℕ) := by exact_mod_cast h1
    have r2 : (weight t.value : ℝ) ≤ M * 2 ^ 20 := by exact_mod_cast h2
    have r3 : (0 : ℝ) < weight t.value := by exact_mod_cast h3
    have r4 : (0 : ℝ) < M := by exact_mod_cast hM0
    have hS0 : (0 : ℝ) < (ks.sum : ℕ) := by linarith
    have hl := Real.log_le_sub_one_of_pos (div_pos r3 hS0)
    have hq : (weight t.value : ℝ) / (ks.sum : ℕ) ≤ 1 - (1 / 2) ^ 13 := by
      rw [div_le_iff₀ hS0]
      generalize ((ks.sum : ℕ) : ℝ) = T at *
      norm_num at r2 ⊢
      linarith
    have he := (abs_le.1 (herr t ht).2).2
    have e13 : (1 / 2 : ℝ) ^ 13 = 1 / 8192 := by norm_num
    have e14 : (1 / 2 : ℝ) ^ 14 = 1 / 16384 := by norm_num
    have e27 : (1 / 2 : ℝ) ^ 27 ≤ 1 / 16384 := by norm_num
    rw [e13] at hq
    rw [e14]
    linarith
  rw [hlog] at hgen
  refine ⟨sorted.map fun t =>
      { t with score := F64.sub (Elementary.ln (F64.ofNat (weight t.value))) (Elementary.ln S) },
    ?_, ?_, ⟨M, weight, hM, hb, hw, ?_⟩, ?_, ?_⟩
  · rw [hgen, if_pos]
    rw [List.all_eq_true]
    intro t ht
    obtain ⟨u, hu, rfl⟩ := List.mem_map.1 ht
    refine F64.isNormal_of_far (herr u hu).1 ?_
    have h3 := neg_le_abs (real (F64.sub (Elementary.ln (F64.ofNat (weight u.value))) (Elementary.ln S)))
    exact (le_neg_of_le_neg (hneg u hu)).trans h3
  · intro t ht
    obtain ⟨u, hu, rfl⟩ := List.mem_map.1 ht
    refine ⟨(herr u hu).1, lt_of_le_of_lt (hneg u hu) (by norm_num)⟩
  · intro t ht
    obtain ⟨u, hu, rfl⟩ := List.mem_map.1 ht
    rw [List.map_map]
    have : sorted.map ((fun t : ScoredToken F64 => weight t.value) ∘ fun t =>
        { t with score := F64.sub (Elementary.ln (F64.ofNat (weight t.value))) (Elementary.ln S) }) = ks := hks.symm
    rw [this]
    exact (herr u hu).2
  · rw [List.map_map]
    have hpos : ∀ t ∈ sorted, (0 : ℝ) < weight t.value := fun t ht => by exact_mod_cast (hv' t ht).1
    have hS0 : (0 : ℝ) < (ks.sum : ℕ) := by
      have : 0 < ks.sum := by omega
      exact_mod_cast this
    have hnear := sum_exp_near (fun t : ScoredToken F64 => real (F64.sub (Elementary.ln (F64.ofNat (weight t.value))) (Elementary.ln S)))
      (fun t => (weight t.value : ℝ) / (ks.sum : ℕ)) (δ := (1 / 2) ^ 27) (by norm_num) sorted
      (fun t ht => ⟨div_pos (hpos t ht) hS0, (herr t ht).2⟩)
    have hone : (sorted.map fun t => (weight t.value : ℝ) / (ks.sum : ℕ)).sum = 1 := by
      have hdiv : ∀ (l : List (ScoredToken F64)) (T : ℝ), (l.map fun t => (weight t.value : ℝ) / T).sum =
          ((l.map fun t => weight t.value).sum : ℕ) / T := by
        intro l T
        induction l with
        | nil => simp
        | cons x l ih => rw [List.map_cons, List.sum_cons, ih, List.map_cons, List.sum_cons, Nat.cast_add]; ring
      rw [hdiv, ← hks, div_self hS0.ne']
    rw [hone] at hnear
    refine le_trans hnear ?_
    norm_num
  · intro hmono
    have hfin := fun t ht => (hall t ht).1
    have hsc : ScoreSorted sorted := by
      have hnn : ∀ t ∈ vocab, t.score ≠ F64.nan := by
        intro t ht
        have ht' := hperm.symm.subset ht
        rw [(hv' t ht').2.1]
        intro e
        have := (hfin t ht').1
        rw [e] at this
        exact this
      obtain ⟨l', h1, _, h3⟩ := sort_desc F64.orderLaws hs (l := vocab) hnn
      unfold sortUnwrap at h1
      split at h1
      · simp only [Except.ok.injEq] at h1
        rw [hrun]
        have : (fun a b : ScoredToken F64 => ((partialCmp a.score b.score).getD .eq).swap) =
            fun a b => (partialCmp b.score a.score).getD .eq := by
          funext a b
          exact swap_partialCmp _ _
        rw [this, h1]
        exact h3
      · simp at h1
    unfold ScoreSorted at hsc ⊢
    rw [List.pairwise_map]
    refine hsc.imp_of_mem ?_
    intro a b ha hb hab
    have hab' : F64.lt a.score b.score = false := hab
    rw [(hv' a ha).2.1, (hv' b hb).2.1] at hab'
    obtain ⟨fa, pa, fS, pS⟩ := hfin a ha
    obtain ⟨fb, pb, _, _⟩ := hfin b hb
    have hle := hmono _ _ fb fa pb (F64.real_lt fa fb hab')
    have la := (L _ fa pa).1
    have lb := (L _ fb pb).1
    have lS := F64.finite_real_neg (L _ fS pS).1
    have hkey := F64.add_mono_finite (F64.finite_total lb) (F64.finite_total la) lS.1 ((F64.real_le_iff lb la).1 hle)
    exact (F64.lt_false (F64.finite_total (herr a ha).1).2 (F64.finite_total (herr b hb).1).2).2 hkey

/-! ### Non-vacuity -/

omit [Elementary] in
theorem key_signed (z : Int) (N : Nat) : (F64.num (decide (z < 0)) (z.natAbs * N)).key = z * (N : Int) := by
  by_cases hz : z < 0
  · rw [decide_eq_true hz]
    show -((z.natAbs * N : Nat) : Int) = _
    rw [Nat.cast_mul, ← neg_mul]
    congr 1
    omega
  · rw [decide_eq_false hz]
    show ((z.natAbs * N : Nat) : Int) = _
    rw [Nat.cast_mul]
    congr 1
    omega

omit [Elementary] in
theorem real_signed (z : Int) (k : Nat) (hk : k ≤ 1074) : real (F64.num (decide (z < 0)) (z.natAbs * 2 ^ k)) = (z : ℝ) * (1 / 2) ^ (1074 - k) := by
  rw [F64.real_num, key_signed, Int.cast_mul, Int.cast_natCast, Nat.cast_pow, Nat.cast_ofNat, mul_assoc]
  congr 1
  unfold F64.ulp
  obtain ⟨j, hj⟩ := Nat.exists_eq_add_of_le hk
  rw [hj, Nat.add_sub_cancel_left, pow_add, ← mul_assoc, ← mul_pow]
  norm_num

/-- The logarithm rounded down to a multiple of `2^-42`. -/
noncomputable def floorLn (x : F64) : F64 :=
  .num (decide (⌊Real.log (real x) * 2 ^ 42⌋ < 0)) ((⌊Real.log (real x) * 2 ^ 42⌋).natAbs * 2 ^ 1032)

omit [Elementary] in
theorem real_floorLn (x : F64) : real (floorLn x) = (⌊Real.log (real x) * 2 ^ 42⌋ : ℝ) * (1 / 2) ^ 42 :=
  real_signed _ 1032 (by omega)

omit [Elementary] in
theorem log_bounds {x : F64} (h : Spec.Finite x) (hx : 0 < real x) : |Real.log (real x)| ≤ 1074 := by
  have h2 : Real.log 2 ≤ 1 := by
    have := Real.log_le_sub_one_of_pos (show (0 : ℝ) < 2 by norm_num)
    linarith
  have h2' : 0 ≤ Real.log 2 := Real.log_nonneg (by norm_num)
  obtain ⟨n, hn, hlt, e⟩ : ∃ n : Nat, 0 < n ∧ n < F64.limit ∧ real x = (n : ℝ) * F64.ulp := by
    cases x with
    | nan => exact h.elim
    | inf s => exact h.elim
    | num s n =>
      cases s with
      | true =>
        exfalso
        rw [F64.real_num] at hx
        have : ((F64.num true n).key : ℝ) ≤ 0 := by
          show ((-(n : Int) : Int) : ℝ) ≤ 0
          rw [Int.cast_neg, Int.cast_natCast]
          have := Nat.cast_nonneg (α := ℝ) n
          linarith
        nlinarith [F64.ulp_pos]
      | false =>
        have e : real (.num false n) = (n : ℝ) * F64.ulp := by
          rw [F64.real_num]
          show ((n : Int) : ℝ) * _ = _
          rw [Int.cast_natCast]
        refine ⟨n, ?_, F64.isDouble_lt h, e⟩
        rcases Nat.eq_zero_or_pos n with h0 | h0
        · rw [e, h0, Nat.cast_zero, zero_mul] at hx
          exact absurd hx (lt_irrefl _)
        · exact h0
  have hn1 : (1 : ℝ) ≤ n := by exact_mod_cast hn
  have hlog1 : 0 ≤ Real.log n := Real.log_nonneg hn1
  have hlog2 : Real.log n ≤ 2098 * Real.log 2 := by
    have h3 : (n : ℝ) ≤ ((F64.limit : Nat) : ℝ) := Nat.cast_le.2 hlt.le
    rw [F64.limit_eq, Nat.cast_pow, Nat.cast_ofNat] at h3
    have h4 := Real.log_le_log (by linarith) h3
    rw [Real.log_pow, F64.limitExp_eq] at h4
    exact_mod_cast h4
  have hu : Real.log F64.ulp = -(1074 * Real.log 2) := by
    unfold F64.ulp
    rw [Real.log_pow, one_div, Real.log_inv]
    push_cast
    ring
  rw [e, Real.log_mul (by linarith) F64.ulp_pos.ne', hu, abs_le]
  constructor <;> nlinarith

omit [Elementary] in
theorem finite_shifted {s : Bool} {m k : Nat} (hm : m < 2 ^ 53) (hk : k ≤ 2045) : Spec.Finite (F64.num s (m * 2 ^ k)) :=
  ⟨m, k, hm, hk, rfl⟩

omit [Elementary] in
/-- There are logarithms as the theorem wants them. -/
theorem ln_exists : ∃ E : Elementary, @LnWithin E ((1 / 2) ^ 42) ∧ @LnMonotone E := by
  refine ⟨⟨id, floorLn⟩, ?_, ?_⟩
  · intro x hx h0
    have hb := abs_le.1 (log_bounds hx h0)
    have h1 := Int.floor_le (Real.log (real x) * 2 ^ 42)
    have h2 := Int.lt_floor_add_one (Real.log (real x) * 2 ^ 42)
    constructor
    · show Spec.Finite (floorLn x)
      unfold floorLn
      refine finite_shifted ?_ (by omega)
      have h3 : (⌊Real.log (real x) * 2 ^ 42⌋ : ℝ) < ((2 ^ 53 : Int) : ℝ) := by
        push_cast
        linarith
      have h4 : ((-2 ^ 53 : Int) : ℝ) < (⌊Real.log (real x) * 2 ^ 42⌋ : ℝ) := by
        push_cast
        linarith
      have h5 := Int.cast_lt.1 h3
      have h6 := Int.cast_lt.1 h4
      omega
    · show |real (floorLn x) - _| ≤ _
      rw [real_floorLn, abs_le]
      generalize (⌊Real.log (real x) * 2 ^ 42⌋ : ℝ) = z at *
      constructor <;> norm_num at h1 h2 ⊢ <;> linarith
  · intro x y _ _ h0 hxy
    show real (floorLn x) ≤ real (floorLn y)
    rw [real_floorLn, real_floorLn]
    refine mul_le_mul_of_nonneg_right ?_ (by positivity)
    have := Real.log_le_log h0 hxy
    exact_mod_cast Int.floor_le_floor (mul_le_mul_of_nonneg_right this (by positivity))

omit [Elementary] in
theorem zero_below_one : F64.lt (.num false 0) (F64.ofNat 1) = true := by decide +kernel

omit [Elementary] in
theorem zero_not_above : F64.le (.num false 0) (.num false 0) = true := by decide +kernel

omit [Elementary] in
theorem lt_f64 (x y : F64) : ScoreOps.lt x y = F64.lt x y := rfl

omit [Elementary] in
theorem le_f64 (x y : F64) : ScoreOps.le x y = F64.le x y := rfl

theorem unit_f64 : ∃ x : F64, le zero x = true ∧ lt x (ofNat 1) = true := by
  refine ⟨.num false 0, ?_, ?_⟩
  · rw [le_f64]
    exact zero_not_above
  · rw [lt_f64]
    exact zero_below_one

/-- The hypotheses are met: with such a logarithm, a generator that was fed `"xaby"` and `"ab"`, with `"ab"` as an added
token, generates a vocabulary, and every score in it is negative. -/
theorem generate_f64_case (hE : LnWithin ((1 / 2) ^ 42)) (hM : LnMonotone) (prob : F64) :
    ∃ g : Generator F64, Fed 4 prob none none [['a', 'b']] [] [['x', 'a', 'b', 'y'], ['a', 'b']] g ∧
    0 < frequency g ['a', 'b'] ∧
    ∃ w, Generate g (insertSorter _) (insertSorter _) 300 w ∧ w ≠ [] ∧ (∀ t ∈ w, real t.score < 0) ∧ ScoreSorted w := by
  obtain ⟨g, hg⟩ := (C46_feed (Generator.new 4 prob none none [['a', 'b']] []) (fun _ => 0)
    [['x', 'a', 'b', 'y'], ['a', 'b']]).1 unit_f64
  have hfed := Fed.feed (Fed.new (max := 4) (prob := prob) (split := none) (allow := none)
    (added := [['a', 'b']]) (suggested := [])) hg
  rw [List.nil_append] at hfed
  obtain ⟨hconf, sels, hsel, hfreq⟩ := (C46_feed _ _ _).2 g hg
  have hnew : ∀ s, frequency (Generator.new 4 prob none none [['a', 'b']] []) s = if s = ['a', 'b'] then 1 else 0 := by
    intro s
    unfold frequency Generator.new
    simp only [List.foldl_cons, List.foldl_nil, FreqTable.incr, FreqTable.get?]
    by_cases h : s = ['a', 'b']
    · rw [if_pos h, if_pos h.symm]; rfl
    · rw [if_neg h, if_neg (fun e => h e.symm)]; rfl
  have hl : sels.length = 2 := hsel.length_eq.symm
  have hab : 0 < frequency g ['a', 'b'] := by
    rw [hfreq, hnew, if_pos rfl]
    omega
  refine ⟨g, hfed, hab, ?_⟩
  have hsmall : ∀ s, frequency g s ≤ 3 := fun s => by
    rw [hfreq, hnew]
    have h1 := List.countP_le_length (p := fun sel : List Str => decide (s ∈ sel)) (l := sels)
    split <;> omega
  have hlen : ∀ s, 0 < frequency g s → (enc s).length ≤ 4 := by
    intro s hs
    by_cases hs' : s = ['a', 'b']
    · rw [hs']; decide
    · rw [hfreq, hnew, if_neg hs', Nat.zero_add] at hs
      obtain ⟨sel, h1, h2⟩ := List.countP_pos_iff.1 hs
      have h3 : s ∈ sel := by simpa using h2
      obtain ⟨x, hc⟩ : ∃ x, Candidate (Generator.new 4 prob none none [['a', 'b']] []) x s := by
        clear hfreq hs hl hfed hg
        generalize [['x', 'a', 'b', 'y'], ['a', 'b']] = l at hsel
        induction hsel with
        | nil => simp at h1
        | @cons a b l₁ l₂ hab' _ ih =>
          rcases List.mem_cons.1 h1 with rfl | h1
          · exact ⟨a, hab' s h3⟩
          · exact ih h1
      rcases hc with ⟨_, _, h3, _⟩ | ⟨h3 | h3, _⟩
      · exact h3
      · exact absurd (List.mem_singleton.1 h3) hs'
      · simp [Generator.new] at h3
  obtain ⟨w, hw, hneg, _, hsum, hsort⟩ := C97_generate hE (by norm_num) 4 prob none none [['a', 'b']] [] _ g hfed (insertSorter _)
    (insertSorter_laws _) (insertSorter _) (insertSorter_laws _) 300 (by norm_num)
    (fun s => by
      have h1 := hsmall s
      refine ⟨by omega, ?_⟩
      by_cases h0 : 0 < frequency g s
      · have h2 := Nat.mul_le_mul h1 (hlen s h0)
        omega
      · have : frequency g s = 0 := by omega
        rw [this]
        omega)
    (fun s hs => by have := hlen s hs; omega) g.frequencies (.refl _)
  refine ⟨w, ⟨_, .refl _, hw⟩, ?_, fun t ht => (hneg t ht).2, hsort hM⟩
  rintro rfl
  simp only [List.map_nil, List.sum_nil] at hsum
  norm_num at hsum

omit [Elementary] in
/-- Such logarithms exist, and so do generators and vocabularies. -/
example : ∃ _E : Elementary, ∃ (g : Generator F64) (w : List (ScoredToken F64)),
    Generate g (insertSorter _) (insertSorter _) 300 w ∧ w ≠ [] := by
  obtain ⟨E, hE, hM⟩ := ln_exists
  obtain ⟨g, _, _, w, hw, hne, _⟩ := @generate_f64_case E hE hM (.num false 0)
  exact ⟨E, g, w, hw, hne⟩

end Tokengeex

import Verif.Props.Generate
import Verif.Props.PruneF64
import Verif.Proofs.LogF64
import Verif.Spec.LogF64
/-
The weights that `generate` turns into scores, and how far those scores are from the logarithms of the probabilities.
-/
namespace Tokengeex
open Spec Parallel ScoreOps RealOps Generator

/-- What `generate` sorts and rescales: every token has the weight that its bytes determine. -/
theorem generateFrom_weights {F : Type} [TrainOps F] {max : Nat} {prob : F} {split : Option (Str → List Str)}
    {allow : Option (Str → Bool)} {added suggested fed : List Str} {g : Generator F}
    (h : Fed max prob split allow added suggested fed g)
    {byFreq : Sorter (Str × Nat)} (hf : SortLaws byFreq) {byScore : Sorter (ScoredToken F)} (hs : SortLaws byScore)
    {size : Nat} {entries : List (Str × Nat)} (hp : entries.Perm g.frequencies) :
    ∃ (M : Nat) (weight : Token → Nat) (vocab sorted : List (ScoredToken F)),
      HighestCount g M ∧ 0 < M ∧ (∀ b : UInt8, weight [b] = M) ∧
      (∀ s, 1 < (enc s).length → weight (enc s) = frequency g s * (enc s).length) ∧
      (∀ t ∈ vocab, 0 < weight t.value ∧ t.score = ofNat (weight t.value) ∧
        ((∃ b, t.value = [b]) ∨ ∃ s, t.value = enc s ∧ 1 < (enc s).length ∧ 0 < frequency g s)) ∧
      (∃ rest, vocab = (bytes M : Acc F).vocab ++ rest) ∧ vocab.length ≤ Max.max 255 size ∧
      sorted = byScore.run (fun a b => ((partialCmp a.score b.score).getD .eq).swap) vocab ∧ sorted.Perm vocab ∧
      g.generateFrom byFreq byScore size entries =
        if (logprobs sorted).all (fun t => TrainOps.isNormal t.score) then .ok (logprobs sorted) else .error .panic := by
  obtain ⟨frequent, sorted, acc₁, acc₂, acc₃, t₁, t₂, t₃, hp, hsorted, s₁, s₂, s₃, hrun, hperm, hgen⟩ :=
    generateFrom_shape h hf hs (size := size) hp
  obtain ⟨sels, hsel, _, hnd, hkeys, hconf⟩ := fed_facts h
  have hget : ∀ e ∈ frequent, e.2 = frequency g e.1 ∧ 0 < e.2 := by
    intro e he
    have h1 : (e.1, e.2) ∈ g.frequencies := hp.subset he
    have h2 := (fed_positive h e.1).1 (List.mem_map.2 ⟨_, h1, rfl⟩)
    rw [FreqTable.mem_iff_get? hnd] at h1
    unfold frequency at h2 ⊢
    rw [h1] at h2 ⊢
    exact ⟨rfl, h2⟩
  have hin : ∀ s, 0 < frequency g s → (s, frequency g s) ∈ frequent := by
    intro s hs'
    obtain ⟨e, he, he'⟩ := List.mem_map.1 ((fed_positive h s).2 hs')
    have he2 := hp.symm.subset he
    have := (hget e he2).1
    rw [← he', ← this]
    exact he2
  obtain ⟨M, hM⟩ : ∃ M, M = (frequent.head?.map (·.2)).getD 1 := ⟨_, rfl⟩
  have hMpos : 0 < M ∧ HighestCount g M := by
    cases hfr : frequent with
    | nil =>
      rw [hfr] at hM hin
      simp only [List.head?_nil, Option.map_none, Option.getD_none] at hM
      have h0 : ∀ s, frequency g s = 0 := by
        intro s
        by_contra hn
        exact absurd (hin s (by omega)) (by simp)
      exact ⟨by omega, fun s => by rw [h0]; omega, Or.inr ⟨hM, h0⟩⟩
    | cons e rest =>
      rw [hfr] at hM hin hsorted hget
      simp only [List.head?_cons, Option.map_some, Option.getD_some] at hM
      have he := hget e (List.mem_cons_self ..)
      refine ⟨by omega, ?_, Or.inl ⟨e.1, by omega, by omega⟩⟩
      intro s
      by_cases h0 : 0 < frequency g s
      · rcases List.mem_cons.1 (hin s h0) with h' | h'
        · rw [hM, ← h']
        · have := (List.pairwise_cons.1 hsorted).1 _ h'
          simp only at this
          omega
      · omega
  rw [← hM] at s₁
  refine ⟨M, fun v => if v.length = 1 then M else ((fromUtf8 v).elim 0 (frequency g)) * v.length, acc₃.vocab, sorted, hMpos.2,
    hMpos.1, fun b => by simp, ?_, ?_, ?_, ?_, hrun, hperm, hgen⟩
  · intro s hl
    simp only
    rw [if_neg (by omega), fromUtf8_enc]
    rfl
  · intro u hu
    have hitem : ∀ e : Item, e.2.1 = frequency g e.1 → 0 < e.2.1 → (enc e.1).length > 1 → u = Item.token e →
        0 < (if u.value.length = 1 then M else ((fromUtf8 u.value).elim 0 (frequency g)) * u.value.length) ∧
        u.score = ofNat (if u.value.length = 1 then M else ((fromUtf8 u.value).elim 0 (frequency g)) * u.value.length) ∧
        ((∃ b, u.value = [b]) ∨ ∃ s, u.value = enc s ∧ 1 < (enc s).length ∧ 0 < frequency g s) := by
      rintro e h1 h2 h3 rfl
      have hv : (Item.token e : ScoredToken F).value = enc e.1 := rfl
      have hsc : (Item.token e : ScoredToken F).score = ofNat (e.2.1 * (enc e.1).length) := rfl
      rw [hsc, hv, if_neg (by omega), fromUtf8_enc]
      have e' : Option.elim (some e.1) 0 (frequency g) = e.2.1 := h1.symm
      rw [e']
      exact ⟨Nat.mul_pos h2 (by omega), rfl, Or.inr ⟨e.1, rfl, h3, by omega⟩⟩
    have hpos : ∀ t, t ∈ added ∨ t ∈ suggested → 0 < frequency g t := by
      intro t ht
      rw [← fed_positive h, hkeys]
      tauto
    rw [s₃.vocab, s₂.vocab, s₁.vocab] at hu
    simp only [List.mem_append] at hu
    rcases hu with ((hb | h₁) | h₂) | h₃
    · obtain ⟨b, _, rfl⟩ := (bytes_mem _ _).1 hb
      exact ⟨hMpos.1, rfl, Or.inl ⟨b, rfl⟩⟩
    · obtain ⟨e, he, rfl⟩ := List.mem_map.1 h₁
      obtain ⟨x, hx, e2⟩ := List.mem_map.1 (s₁.sub e he)
      exact hitem e (by rw [← e2]) (by rw [← e2]; exact hpos x (Or.inl hx)) (s₁.long e he) rfl
    · obtain ⟨e, he, rfl⟩ := List.mem_map.1 h₂
      obtain ⟨x, hx, e2⟩ := List.mem_map.1 (s₂.sub e he)
      exact hitem e (by rw [← e2]) (by rw [← e2]; exact hpos x (Or.inr hx)) (s₂.long e he) rfl
    · obtain ⟨e, he, rfl⟩ := List.mem_map.1 h₃
      obtain ⟨x, hx, e2⟩ := List.mem_map.1 (s₃.sub e he)
      have := hget x hx
      exact hitem e (by rw [← e2]; exact this.1) (by rw [← e2]; exact this.2) (s₃.long e he) rfl
  · exact ⟨t₁.map Item.token ++ (t₂.map Item.token ++ t₃.map Item.token), by
      rw [s₃.vocab, s₂.vocab, s₁.vocab, List.append_assoc, List.append_assoc]⟩
  · have e1 := s₁.len
    have e2 := s₂.len
    have e3 := s₃.len
    have e4 : (bytes M : Acc F).vocab.length = 255 := by simp [bytes]
    omega

/-! ### Rounding -/

namespace F64

theorem finite_real_neg {x : F64} (h : Spec.Finite x) : Spec.Finite (neg x) ∧ real (neg x) = -real x := by
  cases x with
  | nan => exact h.elim
  | inf s => exact h.elim
  | num s n =>
    refine ⟨h, ?_⟩
    cases s <;> simp [neg, real]

variable [Elementary]

/-- A difference of logarithms. -/
theorem log_sub {ε : ℝ} (L : LnWithin ε) (hε : ε ≤ 1) {x y : F64} (hx : Spec.Finite x) (hy : Spec.Finite y)
    (hx0 : 1 / 2 ≤ real x) (hy0 : 1 / 2 ≤ real y) (hx1 : real x ≤ 2 ^ 100) (hy1 : real y ≤ 2 ^ 100) :
    Spec.Finite (sub (Elementary.ln x) (Elementary.ln y)) ∧
    |real (sub (Elementary.ln x) (Elementary.ln y)) - (Real.log (real x) - Real.log (real y))| ≤ 2 * ε + 300 * u := by
  obtain ⟨a1, a2⟩ := L x hx (by linarith)
  obtain ⟨b1, b2⟩ := L y hy (by linarith)
  obtain ⟨c1, c2⟩ := finite_real_neg b1
  have hlog : ∀ z : ℝ, 1 / 2 ≤ z → z ≤ 2 ^ 100 → |Real.log z| ≤ 100 := by
    intro z h1 h2
    have e1 := Real.log_le_log (by linarith) h2
    have e2 := Real.log_le_log (by norm_num) h1
    have e3 : Real.log ((2 : ℝ) ^ 100) = 100 * Real.log 2 := by
      rw [Real.log_pow]; norm_num
    have e4 : Real.log (1 / 2 : ℝ) = -Real.log 2 := by rw [one_div, Real.log_inv]
    have e5 := Real.log_le_sub_one_of_pos (show (0 : ℝ) < 2 by norm_num)
    rw [abs_le]
    constructor <;> linarith
  have lx := abs_le.1 (hlog _ hx0 hx1)
  have ly := abs_le.1 (hlog _ hy0 hy1)
  have a3 := abs_le.1 a2
  have b3 := abs_le.1 b2
  have hsmall : |real (Elementary.ln x) + real (neg (Elementary.ln y))| ≤ 300 := by
    rw [c2, abs_le]
    constructor <;> linarith
  have h300 : (300 : ℝ) ≤ 2 ^ 1000 := by
    calc (300 : ℝ) ≤ 2 ^ 9 := by norm_num
      _ ≤ 2 ^ 1000 := pow_le_pow_right₀ (by norm_num) (by omega)
  obtain ⟨d1, d2⟩ := add_err a1 c1 (hsmall.trans h300)
  have d3 := of_err d2
  refine ⟨d1, ?_⟩
  have d4 : u * |real (Elementary.ln x) + real (neg (Elementary.ln y))| ≤ u * 300 :=
    mul_le_mul_of_nonneg_left hsmall u_pos.le
  have d5 := abs_le.1 (d3.trans d4)
  rw [c2] at d5
  unfold sub
  rw [abs_le]
  constructor <;> linarith

omit [Elementary] in
theorem finite_total {x : F64} (h : Spec.Finite x) : Total x := by
  cases x with
  | nan => exact h.elim
  | inf s => exact h.elim
  | num s n => exact ⟨h, by simp⟩

omit [Elementary] in
theorem foldl_score (l : List (ScoredToken F64)) (a : F64) :
    l.foldl (fun acc t => ScoreOps.add acc t.score) a = (l.map (·.score)).foldl add a := by
  rw [List.foldl_map]
  rfl

omit [Elementary] in
theorem pow_u (n : Nat) (hn : n ≤ 2 ^ 24) : (1 + u) ^ n ≤ 2 := by
  have h := log_one_add n
  have hp : 0 < (1 + u) ^ n := pow_pos (by have := u_pos; linarith) _
  by_contra hc
  have h2 := Real.log_lt_log (by norm_num) (not_le.1 hc)
  have h3 := Real.one_sub_inv_le_log_of_pos (show (0 : ℝ) < 2 by norm_num)
  have h4 : (n : ℝ) ≤ 2 ^ 24 := by exact_mod_cast hn
  have h5 : (n : ℝ) * (2 * u) ≤ 2 ^ 24 * (2 * u) := mul_le_mul_of_nonneg_right h4 (by have := u_pos; linarith)
  unfold u at *
  norm_num at *
  linarith

/-- Numbers as doubles, added up and turned into logarithms of probabilities. -/
theorem logprob_err {ε : ℝ} (L : LnWithin ε) (hε : ε ≤ (1 / 2) ^ 40) (ks : List Nat) (hlen : ks.length ≤ 2 ^ 24)
    (hk : ∀ k ∈ ks, 0 < k ∧ k ≤ 2 ^ 64) (k : Nat) (hmem : k ∈ ks) :
    (Spec.Finite (ofNat k) ∧ 0 < real (ofNat k) ∧ Spec.Finite ((ks.map ofNat).foldl add (num false 0)) ∧
      0 < real ((ks.map ofNat).foldl add (num false 0))) ∧
    Spec.Finite (sub (Elementary.ln (ofNat k)) (Elementary.ln ((ks.map ofNat).foldl add (num false 0)))) ∧
    |real (sub (Elementary.ln (ofNat k)) (Elementary.ln ((ks.map ofNat).foldl add (num false 0)))) -
      Real.log (k / (ks.sum : ℕ))| ≤ (1 / 2) ^ 27 := by
  have hu := u_pos
  have hu' := u_le
  have hone : ∀ k ∈ ks, Spec.Finite (ofNat k) ∧ (k : ℝ) * (1 - u) ≤ real (ofNat k) ∧ real (ofNat k) ≤ k * (1 + u) := by
    intro k hk'
    obtain ⟨h1, h2⟩ := ofNat_err (hk k hk').2
    have h3 : (0 : ℝ) ≤ k := Nat.cast_nonneg k
    have h4 := of_err (x := (k : ℝ)) (by rw [abs_of_nonneg h3]; exact h2)
    rw [abs_of_nonneg h3] at h4
    have h5 := abs_le.1 h4
    exact ⟨h1, by linarith, by linarith⟩
  -- the sum
  have hsumle : ((ks.sum : ℕ) : ℝ) * (1 - u) ≤ ((ks.map ofNat).map real).sum ∧
      ((ks.map ofNat).map real).sum ≤ ((ks.sum : ℕ) : ℝ) * (1 + u) := by
    clear hmem hlen hk
    induction ks with
    | nil => simp
    | cons x xs ih =>
      have h1 := hone x (by simp)
      have h2 := ih (fun y hy => hone y (by simp [hy]))
      simp only [List.sum_cons, List.map_cons, Nat.cast_add]
      constructor <;> linarith
  have hcount : ks.sum ≤ ks.length * 2 ^ 64 := by
    clear hmem hlen hone hsumle
    induction ks with
    | nil => simp
    | cons x xs ih =>
      have h1 := (hk x (by simp)).2
      have h2 := ih (fun y hy => hk y (by simp [hy]))
      simp only [List.sum_cons, List.length_cons]
      omega
  have hsum88 : ((ks.sum : ℕ) : ℝ) ≤ 2 ^ 88 := by
    have : ks.sum ≤ 2 ^ 88 := by omega
    exact_mod_cast this
  have hsum1 : (1 : ℝ) ≤ ((ks.sum : ℕ) : ℝ) := by
    have h1 : k ≤ ks.sum := List.le_sum_of_mem hmem
    have h2 := (hk k hmem).1
    have : 1 ≤ ks.sum := by omega
    exact_mod_cast this
  have hpow := pow_u ks.length hlen
  have hpow1 : (1 : ℝ) ≤ (1 + u) ^ ks.length := one_le_pow₀ (by linarith)
  have hT0 : 0 ≤ ((ks.map ofNat).map real).sum := by nlinarith [hsumle.1]
  have hT2 : ((ks.map ofNat).map real).sum ≤ 2 ^ 90 := by nlinarith [hsumle.2]
  have hz : real (num false 0) + ((ks.map ofNat).map real).sum = ((ks.map ofNat).map real).sum := by
    rw [real_zero, zero_add]
  have hbig : (real (num false 0) + ((ks.map ofNat).map real).sum) * (1 + u) ^ (ks.map ofNat).length ≤ 2 ^ 91 := by
    rw [hz, List.length_map]
    nlinarith
  obtain ⟨f1, f2, f3⟩ := foldl_rel (ks.map ofNat) (num false 0) (by
      intro x hx
      obtain ⟨j, hj, rfl⟩ := List.mem_map.1 hx
      obtain ⟨h1, h2, _⟩ := hone j hj
      have h3 : (0 : ℝ) ≤ j := Nat.cast_nonneg j
      exact ⟨h1, by nlinarith⟩) finite_posZero (by rw [real_zero])
    (hbig.trans (pow_le_pow_right₀ (by norm_num) (by omega)))
  rw [hz, List.length_map] at f2 f3
  obtain ⟨T, hT⟩ : ∃ T, T = ((ks.map ofNat).map real).sum := ⟨_, rfl⟩
  rw [← hT] at f2 f3 hsumle hT0 hT2
  have hTpos : 0 < T := by nlinarith [hsumle.1]
  obtain ⟨g1, g2⟩ := log_near ks.length hTpos f2 f3
  obtain ⟨_, g3⟩ := log_near (y := T) 1 (lt_of_lt_of_le one_pos hsum1) (by rw [pow_one]; exact hsumle.1) (by rw [pow_one]; exact hsumle.2)
  obtain ⟨k1, k2, k3⟩ := hone k hmem
  have hkpos : (1 : ℝ) ≤ k := by exact_mod_cast (hk k hmem).1
  have hk64 : (k : ℝ) ≤ 2 ^ 64 := by exact_mod_cast (hk k hmem).2
  obtain ⟨_, g4⟩ := log_near (y := real (ofNat k)) 1 (lt_of_lt_of_le one_pos hkpos) (by rw [pow_one]; exact k2) (by rw [pow_one]; exact k3)
  obtain ⟨S, hS⟩ : ∃ S, S = (ks.map ofNat).foldl add (num false 0) := ⟨_, rfl⟩
  rw [← hS] at f1 f2 f3 g1 g2 ⊢
  have hS2 : real S ≤ 2 ^ 100 := by nlinarith
  have hn : (ks.length : ℝ) ≤ 2 ^ 24 := by exact_mod_cast hlen
  have hnu : (ks.length : ℝ) * (2 * u) ≤ 2 ^ 24 * (2 * u) := mul_le_mul_of_nonneg_right hn (by linarith)
  have hS1 : 1 / 2 ≤ real S := by
    by_contra hc
    have hl1 := Real.log_lt_log g1 (not_le.1 hc)
    have hl2 : Real.log (1 / 2 : ℝ) ≤ 1 / 2 - 1 := Real.log_le_sub_one_of_pos (by norm_num)
    have hl3 : 0 ≤ Real.log ((ks.sum : ℕ) : ℝ) := Real.log_nonneg hsum1
    have e1 := abs_le.1 g2
    have e2 := abs_le.1 g3
    unfold u at *
    norm_num at *
    linarith
  obtain ⟨r1, r2⟩ := log_sub L (hε.trans (by norm_num)) k1 f1 (by nlinarith) hS1 (by nlinarith) hS2
  refine ⟨⟨k1, by nlinarith, f1, g1⟩, r1, ?_⟩
  rw [Real.log_div (by linarith) (by linarith)]
  have e1 := abs_le.1 g2
  have e2 := abs_le.1 g3
  have e3 := abs_le.1 g4
  have e4 := abs_le.1 r2
  have htot : 2 * ε + 300 * u + 2 ^ 24 * (2 * u) + 4 * (2 * u) ≤ (1 / 2) ^ 27 := by
    have : 2 * ε ≤ 2 * (1 / 2) ^ 40 := by linarith
    unfold u
    norm_num at *
    linarith
  rw [Nat.cast_one] at e2 e3
  rw [abs_le]
  constructor <;> linarith

end F64
end Tokengeex

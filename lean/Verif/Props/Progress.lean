import Verif.Proofs.Progress
import Verif.Proofs.Parallel
import Verif.Props.TaskRelaxed
/-
C122: the numbers in the messages of a task.
-/
namespace Tokengeex
open Spec Tokengeex.Task

/-- **C122** The monitor leaves its loop exactly if all samples have been counted. -/
theorem C122_stop (numSamples threads processed bytes : Nat) (t₁ t₂ t₃ : F64) :
    look numSamples threads processed bytes t₁ t₂ t₃ = .stop ↔ numSamples ≤ processed := by
  unfold look
  by_cases h : numSamples ≤ processed
  · rw [if_pos h]; exact ⟨fun _ => h, fun _ => rfl⟩
  · rw [if_neg h]
    refine ⟨fun hc => ?_, fun hc => absurd hc h⟩
    dsimp only at hc
    split at hc <;> exact absurd hc (by simp)

/-- **C122** If some but not all of the samples have been counted, a second or more after the start, the monitor prints a message
with four finite numbers: a percentage strictly between 0 and 100, a remaining time that is not negative, and two rates.  The
percentage and the rates are correct up to a factor of `1 ± 2⁻⁴⁹`, and the remaining time up to the same part of the whole time
that is expected. -/
theorem C122_says (numSamples threads processed bytes : Nat) (t₁ t₂ t₃ : F64) (h1 : 0 < processed) (h2 : processed < numSamples)
    (hn : numSamples < 2 ^ 53) (hb : bytes < 2 ^ 53) (hk : 0 < threads) (hk' : threads < 2 ^ 53)
    (ht : ∀ t ∈ [t₁, t₂, t₃], Spec.Finite t ∧ 1 ≤ real t ∧ real t ≤ 2 ^ 64) :
    ∃ l, look numSamples threads processed bytes t₁ t₂ t₃ = .says l ∧
      (Spec.Finite l.percent ∧ Spec.Finite l.eta ∧ Spec.Finite l.speed ∧ Spec.Finite l.perThread) ∧
      (0 < real l.percent ∧ real l.percent < 100 ∧ 0 ≤ real l.eta) ∧
      |real l.percent - 100 * processed / numSamples| ≤ (1 / 2) ^ 49 * (100 * processed / numSamples) ∧
      |real l.eta - real t₁ * (numSamples - processed) / processed| ≤ (1 / 2) ^ 49 * (real t₁ * numSamples / processed) ∧
      |real l.speed - bytes / 2 ^ 20 / real t₂| ≤ (1 / 2) ^ 49 * (bytes / 2 ^ 20 / real t₂) ∧
      |real l.perThread - bytes / 2 ^ 20 / real t₃ / threads| ≤ (1 / 2) ^ 49 * (bytes / 2 ^ 20 / real t₃ / threads) := by
  obtain ⟨f1, a1, b1⟩ := ht t₁ (by simp)
  obtain ⟨f2, a2, b2⟩ := ht t₂ (by simp)
  obtain ⟨f3, a3, b3⟩ := ht t₃ (by simp)
  obtain ⟨fP, p0, p1, gP⟩ := percent_real h1 h2 hn
  obtain ⟨fE, e0, gE⟩ := eta_real h1 h2 hn f1 a1 b1
  obtain ⟨fS, gS⟩ := speed_real hb f2 a2 b2
  obtain ⟨fT, gT⟩ := perThread_real hb hk hk' f3 a3 b3
  have u3 : 3 * F64.u ≤ (1 / 2) ^ 49 := by unfold F64.u; norm_num
  have u6 : 6 * F64.u ≤ (1 / 2) ^ 49 := by unfold F64.u; norm_num
  have u8 : 8 * F64.u ≤ (1 / 2) ^ 49 := by unfold F64.u; norm_num
  have u16 : 16 * F64.u ≤ (1 / 2) ^ 49 := by unfold F64.u; norm_num
  have t10 : 0 < real t₁ := by linarith
  have t20 : 0 < real t₂ := by linarith
  have t30 : 0 < real t₃ := by linarith
  refine ⟨⟨percentDone processed numSamples, eta t₁ (percentDone processed numSamples), mbPerSec bytes t₂,
    (mbPerSec bytes t₃).div (F64.ofNat threads)⟩, ?_, ⟨fP, fE, fS, fT⟩, ⟨p0, p1, e0⟩,
    gP.trans (mul_le_mul_of_nonneg_right u3 (by positivity)), gE.trans (mul_le_mul_of_nonneg_right u16 (by positivity)),
    gS.trans (mul_le_mul_of_nonneg_right u6 (by positivity)), gT.trans (mul_le_mul_of_nonneg_right u8 (by positivity))⟩
  unfold look
  rw [if_neg (by omega)]
  dsimp only
  rw [if_neg]
  intro hc
  rw [Bool.and_eq_true] at hc
  have hnan : percentDone processed numSamples ≠ .nan := by
    intro h
    rw [h] at fP
    exact fP
  have h3 := (F64.le_true hnan (by simp)).1 hc.1
  have h4 := F64.real_eq fP
  rw [h4] at p0
  have h5 : ((percentDone processed numSamples).key : ℝ) ≤ 0 := by
    have : (percentDone processed numSamples).key ≤ 0 := h3
    exact_mod_cast this
  have := mul_nonpos_of_nonpos_of_nonneg h5 F64.ulp_pos.le
  linarith

/-- **C122** In every run, with every interleaving and with stale values of the counters: the percentages of the messages are
finite and strictly between 0 and 100, and they never go back. -/
theorem C122_messages (chunks : List (List Nat)) (hn : chunks.flatten.length < 2 ^ 53) (w : Weak)
    (h : Relation.ReflTransGen Weak.Step (Weak.init chunks) w) :
    (∀ m ∈ w.messages, Spec.Finite (percentDone m chunks.flatten.length) ∧ 0 < real (percentDone m chunks.flatten.length) ∧
      real (percentDone m chunks.flatten.length) < 100) ∧
    (w.messages.map fun m => percentDone m chunks.flatten.length).Pairwise fun x y => F64.le x y = true := by
  obtain ⟨_, _, _, _, hp, hm, _⟩ := C52_relaxed chunks w h
  refine ⟨fun m hmem => ?_, ?_⟩
  · obtain ⟨h0, h1, _⟩ := hm m hmem
    obtain ⟨a, b, c, _⟩ := percent_real h0 h1 hn
    exact ⟨a, b, c⟩
  · rw [List.pairwise_map]
    refine List.Pairwise.imp_of_mem ?_ hp
    intro a b _ hb hab
    exact percent_mono hab (hm b hb).2.1 hn

/-- **C122** If no sample has been counted, the monitor prints nothing and goes on: it neither divides by zero nor stops. -/
theorem C122_silent (numSamples threads bytes : Nat) (t₁ t₂ t₃ : F64) (h : 0 < numSamples) (hn : numSamples < 2 ^ 53) :
    look numSamples threads 0 bytes t₁ t₂ t₃ = .silent := by
  have hpos : ∀ e : Nat, 0 < 2 ^ e := fun e => Nat.pow_pos (by omega)
  have hlim : 0 < F64.limit := F64.limit_pos
  have hp : percentDone 0 numSamples = .num false 0 := by
    have hn0 : numSamples * 2 ^ 1074 ≠ 0 := Nat.mul_ne_zero (by omega) (Nat.pos_iff_ne_zero.1 (hpos _))
    unfold percentDone
    rw [Source.ofNat_small (n := 0) (by norm_num), Source.ofNat_small hn, F64.div_nums _ _ _ _ hn0, Nat.zero_mul, Nat.zero_mul,
      F64.round_of (F64.roundMag_zero (Nat.pos_of_ne_zero hn0)) hlim, Source.ofNat_small (n := 100) (by norm_num), F64.mul_num,
      Nat.zero_mul]
    exact F64.round_of (F64.roundMag_zero (hpos _)) hlim
  unfold look
  rw [if_neg (by omega)]
  dsimp only
  rw [hp]
  exact if_pos (by decide)

/-- **C122** The rate in the last message, at least a second after the start. -/
theorem C122_finished (bytes : Nat) (t : F64) (hb : bytes < 2 ^ 53) (ht : Spec.Finite t) (h1 : 1 ≤ real t) (h2 : real t ≤ 2 ^ 64) :
    Spec.Finite (mbPerSec bytes t) ∧ |real (mbPerSec bytes t) - bytes / 2 ^ 20 / real t| ≤ (1 / 2) ^ 49 * (bytes / 2 ^ 20 / real t) := by
  obtain ⟨f, g⟩ := speed_real hb ht h1 h2
  have u6 : 6 * F64.u ≤ (1 / 2) ^ 49 := by unfold F64.u; norm_num
  have : 0 < real t := by linarith
  exact ⟨f, g.trans (mul_le_mul_of_nonneg_right u6 (by positivity))⟩

theorem chunks_number {α : Type} (n : Nat) (hn : 0 < n) (l : List α) : (Parallel.chunks n l).length = (l.length + n - 1) / n := by
  induction hl : l.length using Nat.strongRecOn generalizing l with
  | _ m ih =>
    subst hl
    unfold Parallel.chunks
    by_cases h : n = 0 ∨ l = []
    · rw [dif_pos h]
      rcases h with h | h
      · omega
      · subst h
        symm
        exact Nat.div_eq_of_lt (by simp; omega)
    · rw [dif_neg h]
      push Not at h
      have hpos := List.length_pos_iff.2 h.2
      rw [List.length_cons, ih (l.drop n).length (by rw [List.length_drop]; omega) _ rfl, List.length_drop]
      by_cases hle : n ≤ l.length
      · have : l.length + n - 1 = (l.length - n + n - 1) + n := by omega
        rw [this, Nat.add_div_right _ hn]
      · have e1 : l.length - n = 0 := by omega
        have e2 : l.length + n - 1 = (l.length - 1) + n := by omega
        rw [e1, e2, Nat.add_div_right _ hn, Nat.div_eq_of_lt (by omega), Nat.div_eq_of_lt (by omega)]

/-- **C122** The first message announces the number of chunks, or one more: one more exactly if the last chunk is full or there
is no sample. -/
theorem C122_chunks {α : Type} (samples : List α) (chunkSize : Nat) (h : 0 < chunkSize) :
    announcedChunks samples.length chunkSize =
      some ((Parallel.chunks chunkSize samples).length + if chunkSize ∣ samples.length then 1 else 0) := by
  unfold announcedChunks
  rw [if_neg (by omega), chunks_number _ h]
  congr 1
  rw [Nat.add_div_right _ h]
  obtain ⟨q, r, hr, hqr⟩ : ∃ q r, r < chunkSize ∧ samples.length = r + chunkSize * q :=
    ⟨samples.length / chunkSize, samples.length % chunkSize, Nat.mod_lt _ h, (Nat.mod_add_div _ _).symm⟩
  rw [hqr]
  have e1 : (r + chunkSize * q) / chunkSize = q := by rw [Nat.add_mul_div_left _ _ h, Nat.div_eq_of_lt hr, Nat.zero_add]
  rw [e1]
  by_cases h0 : r = 0
  · subst h0
    have hd : chunkSize ∣ 0 + chunkSize * q := ⟨q, by omega⟩
    have e2 : 0 + chunkSize * q + chunkSize - 1 = (chunkSize - 1) + chunkSize * q := by omega
    rw [if_pos hd, e2, Nat.add_mul_div_left _ _ h, Nat.div_eq_of_lt (by omega), Nat.zero_add]
  · have hd : ¬ chunkSize ∣ r + chunkSize * q := by
      intro hd
      have := (Nat.dvd_add_left ⟨q, rfl⟩).1 hd
      exact absurd (Nat.le_of_dvd (by omega) this) (by omega)
    have e2 : r + chunkSize * q + chunkSize - 1 = (r - 1) + chunkSize * q + chunkSize := by omega
    rw [if_neg hd, e2, Nat.add_div_right _ h, Nat.add_mul_div_left _ _ h, Nat.div_eq_of_lt (by omega), Nat.zero_add, Nat.add_zero]

/-- With ten samples in chunks of five, three chunks are announced and there are two. -/
example : announcedChunks (List.replicate 10 ()).length 5 = some 3 ∧ (Parallel.chunks 5 (List.replicate 10 ())).length = 2 :=
  ⟨by decide, by rw [chunks_number 5 (by omega)]; decide⟩

set_option linter.constructorNameAsVariable false in
/-- The hypotheses of `C122_says` are met: 3 of 8 samples and 5 million bytes after two seconds with 4 threads. -/
example : ∃ l, look 8 4 3 5000000 (F64.ofNat 2) (F64.ofNat 2) (F64.ofNat 2) = .says l ∧ |real l.percent - 37.5| ≤ 1 / 1000 := by
  obtain ⟨f, r⟩ := F64.ofNat_real (n := 2) (by norm_num)
  rw [Nat.cast_ofNat] at r
  generalize F64.ofNat 2 = two at f r
  obtain ⟨l, h1, _, _, h2, _⟩ := C122_says 8 4 3 5000000 two two two (by norm_num) (by norm_num) (by norm_num) (by norm_num)
    (by norm_num) (by norm_num) (by
      intro t ht
      simp only [List.mem_cons, List.not_mem_nil, or_false, or_self] at ht
      subst ht
      exact ⟨f, by rw [r]; norm_num, by rw [r]; norm_num⟩)
  refine ⟨l, h1, ?_⟩
  have e : (100 * ((3 : Nat) : ℝ) / ((8 : Nat) : ℝ)) = 37.5 := by norm_num
  rw [e] at h2
  exact h2.trans (by norm_num)

end Tokengeex

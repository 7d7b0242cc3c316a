import Verif.Props.PruneF64
import Verif.Props.GenerateF64
import Verif.Proofs.LossF64
import Verif.Proofs.ReturnsF64
import Verif.Spec.PruneF64
/-
C104 and C65 with doubles: as long as no loss is close to 0, a prune step returns and removes the tokens of least loss.
-/
namespace Tokengeex
open Spec ScoreOps RealOps Relation

/-- The bytes of a text that is cut into non-empty tokens are at least as many as the tokens. -/
theorem resegments_length {F : Type} {vocab : List (ScoredToken F)} {bs : List UInt8} {alt : List Nat}
    (h : Resegments vocab bs alt) : alt.length ≤ bs.length ∧ ∀ j ∈ alt, j < vocab.length := by
  obtain ⟨_, ⟨toks, e, e'⟩, hc⟩ := h
  have hlt : ∀ j ∈ alt, j < vocab.length := by
    intro j hj
    obtain ⟨_, _, ⟨t, ht, _⟩, _⟩ := hc j hj
    exact (List.getElem?_eq_some_iff.1 ht).1
  refine ⟨?_, hlt⟩
  have key : ∀ (alt : List Nat) (toks : List (ScoredToken F)), (∀ j ∈ alt, ∃ v, v ≠ [] ∧ (vocab[j]?).map (·.value) = some v) →
      alt.map (fun i => vocab[i]?) = toks.map some → alt.length ≤ (toks.map (·.value)).flatten.length := by
    intro alt
    induction alt with
    | nil => intro _ _ _; simp
    | cons j alt ih =>
      intro toks hv e
      cases toks with
      | nil => simp at e
      | cons t toks =>
        simp only [List.map_cons, List.cons.injEq] at e
        have := ih toks (fun j hj => hv j (List.mem_cons_of_mem _ hj)) e.2
        obtain ⟨v, hv0, hv1⟩ := hv j (List.mem_cons_self ..)
        rw [e.1] at hv1
        simp only [Option.map_some, Option.some.injEq] at hv1
        have := List.length_pos_iff.2 (hv1 ▸ hv0)
        simp only [List.map_cons, List.flatten_cons, List.length_append, List.length_cons]
        omega
  have := key alt toks (by
    intro j hj
    obtain ⟨v, hv, ⟨t, ht, e⟩, _⟩ := hc j hj
    exact ⟨v, hv, by rw [ht]; simpa using e⟩) e
  rw [← e']
  exact this

/-- A token occurs only if there are samples. -/
theorem samples_pos {α : Type} {f : α → Res (List Nat)} {samples : List α} {idss : List (List Nat)}
    (h : samples.mapM f = .ok idss) {i : Nat} (hi : 0 < tokenCount idss i) : 0 < samples.length := by
  cases samples with
  | cons => simp
  | nil =>
    simp only [List.mapM_nil, res_pure, Except.ok.injEq] at h
    subst h
    simp [tokenCount] at hi

variable [Elementary]

/-- The counts that a prune step works with. -/
theorem frequencies_counts {vocab : List (ScoredToken F64)} {samples : List Str} {idss : List (List Nat)} {rnd : Nat → F64}
    {freqs : List Nat}
    (hids : samples.mapM (fun s => (Model.from_ vocab).encode s (.num false 0) (fun _ => .num false 0)) = .ok idss)
    (hfr : Pruner.Frequencies (Model.from_ vocab) rnd samples freqs) : freqs = (List.range vocab.length).map (tokenCount idss) := by
  have hids' : samples.mapM (fun s => (Model.from_ vocab).encode s zero rnd) = .ok idss := by
    rw [← hids]
    refine congrArg (fun f => samples.mapM f) ?_
    funext s
    exact C06_deterministic vocab s _ _ _ (by decide)
  obtain ⟨val, hval, hfv⟩ := hfr
  rw [hfv, Model.vocabSize, Model.from_vocab]
  refine List.map_congr_left (fun i hi => ?_)
  exact C50_tokens (Model.from_ vocab) _ samples idss hids' val hval i
    (by rw [Model.vocabSize, Model.from_vocab]; exact List.mem_range.1 hi)

/-- **C104** (doubles, partial) With doubles, if `ln` errs by at most 2^-40: on a corpus that can be encoded and a vocabulary without
NaN, a prune step neither panics nor fails nor loops, whatever its random numbers and the division of the work, unless the loss of
some unprotected token that occurs is close to 0, or a count is not below 2^52, or a token longer than 1024 bytes.

Missing: `C104_false_doubles` shows that the condition on the losses cannot be dropped altogether. -/
theorem C104_doubles_partial {ε : ℝ} (L : LnWithin ε) (hε : ε ≤ (1 / 2) ^ 40) (c : Pruner F64) (std : Pruner.Std F64) (hstd : StdLaws std)
    (samples : List Str) (vocab : List (ScoredToken F64)) (hsize : vocab.length ≤ 4294967294) (hn : ∀ t ∈ vocab, t.score ≠ .nan)
    (idss : List (List Nat))
    (hids : samples.mapM (fun s => (Model.from_ vocab).encode s (.num false 0) (fun _ => .num false 0)) = .ok idss)
    (hclear : ClearLosses samples.length vocab (tokenCount idss))
    (rnd : Nat → F64) (freqs : List Nat) (hfr : Pruner.Frequencies (Model.from_ vocab) rnd samples freqs) :
    ∃ w fuel₀, ∀ fuel ≥ fuel₀, Pruner.pruneVocab c std (Model.from_ vocab) rnd samples.length freqs fuel = .ok w := by
  have hfreqs := frequencies_counts hids hfr
  obtain ⟨ok, hheap⟩ := hstd.heap
  obtain ⟨alts, fuel₁, hseg, halts⟩ := Pruner.segmentTokens_spec hheap hsize rnd vocab (VecPool.withCapacity 32) Lattice.new (.start 32)
  have hn' : ∀ t ∈ vocab, TrainOps.isNan t.score = false := by
    intro t ht
    have := hn t ht
    cases hs : t.score with
    | nan => exact absurd hs this
    | inf s => rfl
    | num s n => rfl
  refine Pruner.pruneVocab_total_of F64.trainLaws hstd hn' hseg halts ?_
  intro i t a ht hex
  have hi := (List.getElem?_eq_some_iff.1 ht).1
  have hfi : idx freqs i = .ok (tokenCount idss i) := by
    rw [hfreqs, idx_of_lt (by simpa using hi)]
    congr 1
    simp
  unfold Pruner.judge
  by_cases hk : t.keep = true
  · rw [if_pos hk]; exact ⟨_, rfl⟩
  · rw [if_neg hk, hfi]
    simp only [res_bind_ok]
    by_cases h1 : (decide (tokenCount idss i = 0) && !a.1) = true
    · rw [if_pos h1]; exact ⟨_, rfl⟩
    · rw [if_neg h1]
      by_cases h2 : a.2.isEmpty = true
      · rw [if_pos h2]; exact ⟨_, rfl⟩
      · rw [if_neg h2]
        by_cases h3 : tokenCount idss i ≠ 0
        · rw [if_pos h3]
          have hre : Resegments vocab t.value a.2 := hex.2 (by simpa using h2)
          have hc : 0 < tokenCount idss i := by omega
          obtain ⟨k1, k2, k3⟩ := hclear.2 i t a.2 ht (by simpa using hk) hc hre
          obtain ⟨r1, r2⟩ := resegments_length hre
          obtain ⟨l, l1, l2, _⟩ := F64.lossOf_near L hε hi hc (samples_pos hids hc) hclear.1 r2 (by omega) k2 k3
          rw [hfreqs, l1]
          simp only [res_bind_ok, l2]
          exact ⟨_, rfl⟩
        · rw [if_neg h3]; exact ⟨_, rfl⟩

/-- **C65** (doubles) With doubles, if `ln` errs by at most 2^-40 and no loss is close to 0: among the unprotected tokens that occur,
prune removes those of least loss, up to rounding.  The loss of a token is computed from a way `alt` of cutting its bytes into other
tokens; every removed token has one; if a token that occurs is removed, exactly `max (shrink n) vocab_size` tokens are left, and no
kept token with an alternative has a loss that is smaller by more than the rounding.  With the heap of Rust and a well-formed
vocabulary of moderate scores and lengths, every token that is better than all other ways of cutting its bytes has an alternative. -/
theorem C65_doubles {ε : ℝ} (L : LnWithin ε) (hε : ε ≤ (1 / 2) ^ 40) (c : Pruner F64) (std : Pruner.Std F64) (hstd : StdLaws std)
    (samples : List Str) (vocab : List (ScoredToken F64)) (hsize : vocab.length ≤ 4294967294) (idss : List (List Nat))
    (hids : samples.mapM (fun s => (Model.from_ vocab).encode s (.num false 0) (fun _ => .num false 0)) = .ok idss)
    (hclear : ClearLosses samples.length vocab (tokenCount idss)) (m' : Model F64)
    (h : Pruner.PruneStep c std samples (Model.from_ vocab) m') :
    ∃ w, ∃ ids, ∃ alt : Nat → List Nat, m' = Model.from_ w ∧ ids.Nodup ∧ EntriesAt vocab ids w ∧
      (∀ i t, vocab[i]? = some t → t.keep = true → i ∈ ids) ∧
      (∀ i t, vocab[i]? = some t → alt i ≠ [] → Resegments vocab t.value (alt i)) ∧
      (std.heap = agendaHeap F64 → WellFormed vocab → (∀ t ∈ vocab, Spec.Finite t.score ∧ |real t.score| ≤ 64) →
        (∀ t ∈ vocab, t.value.length ≤ 256) → ∀ i t, vocab[i]? = some t → Replaceable vocab t → alt i ≠ []) ∧
      (∀ i t, vocab[i]? = some t → 0 < tokenCount idss i → i ∉ ids →
        alt i ≠ [] ∧ w.length = max (c.shrink vocab.length) c.vocabSize) ∧
      (∀ i t j u, vocab[i]? = some t → 0 < tokenCount idss i → i ∉ ids →
        vocab[j]? = some u → 0 < tokenCount idss j → j ∈ ids → u.keep = false → alt j ≠ [] →
        pruneLoss samples.length vocab.length (tokenCount idss) i (alt i) ≤
          pruneLoss samples.length vocab.length (tokenCount idss) j (alt j) +
            (1 / 2) ^ 22 * (((tokenCount idss i : ℝ) + tokenCount idss j) / samples.length)) := by
  obtain ⟨rnd, freqs, w, fuel₀, hfr, hw, rfl⟩ := h
  have hfreqs := frequencies_counts hids hfr
  obtain ⟨alts, f1, vs, ids, hseg, halts, h1, h2, h3, h4, h5, h6, _, _, h9, h10, _⟩ := Pruner.pruneVocab_spec hstd hsize hw
  have hlen := halts.length_eq
  have hv : ∀ i t, vocab[i]? = some t → ∃ a v, alts[i]? = some a ∧ vs[i]? = some v ∧ Pruner.AltOK vocab t.value a ∧
      Pruner.judge samples.length vocab.length freqs i t a = .ok v := by
    intro i t ht
    have hlt := (List.getElem?_eq_some_iff.1 ht).1
    have ha : i < alts.length := by omega
    have hs : i < vs.length := by omega
    exact ⟨_, _, List.getElem?_eq_getElem ha, List.getElem?_eq_getElem hs,
      forall₂_get halts ht (List.getElem?_eq_getElem ha), h2 i t _ _ ht (List.getElem?_eq_getElem ha) (List.getElem?_eq_getElem hs)⟩
  have hget : ∀ i t, vocab[i]? = some t → freqs[i]? = some (tokenCount idss i) := by
    intro i t ht
    have := (List.getElem?_eq_some_iff.1 ht).1
    rw [hfreqs, List.getElem?_map, List.getElem?_range this]
    rfl
  have halt : ∀ (i : Nat) (a : Bool × List Nat), alts[i]? = some a → (((alts[i]?).map (·.2)).getD []) = a.2 := by
    intro i a h; rw [h]; rfl
  -- an unprotected token that occurs and has an alternative
  have hloss : ∀ i t a v, vocab[i]? = some t → t.keep = false → 0 < tokenCount idss i → alts[i]? = some a → vs[i]? = some v →
      Pruner.AltOK vocab t.value a → Pruner.judge samples.length vocab.length freqs i t a = .ok v → a.2 ≠ [] →
      ∃ l, v = .candidate l ∧ Spec.Finite l ∧
        |real l - pruneLoss samples.length vocab.length (tokenCount idss) i a.2| ≤ (1 / 2) ^ 22 * ((tokenCount idss i : ℝ) / samples.length) := by
    intro i t a v ht hk hc _ _ hex hj hne
    have hi := (List.getElem?_eq_some_iff.1 ht).1
    have hre := hex.2 hne
    obtain ⟨k1, k2, k3⟩ := hclear.2 i t a.2 ht hk hc hre
    obtain ⟨r1, r2⟩ := resegments_length hre
    obtain ⟨l, l1, l2, l3, l4⟩ := F64.lossOf_near L hε hi hc (samples_pos hids hc) hclear.1 r2 (by omega) k2 k3
    rcases Pruner.judge_cases hj with ⟨q, _⟩ | ⟨_, f, hf, q⟩
    · rw [hk] at q; simp at q
    · rw [hget i t ht, Option.some.injEq] at hf
      rcases q with ⟨q, _⟩ | ⟨_, q, _⟩ | ⟨_, _, l', q1, _, q3⟩ | ⟨q, _⟩
      · omega
      · exact absurd q hne
      · rw [hfreqs, l1] at q1
        simp only [Except.ok.injEq] at q1
        subst q1
        exact ⟨l, q3, l3, l4⟩
      · omega
  have hkeep : ∀ i t, vocab[i]? = some t → t.keep = true → i ∈ ids := by
    intro i t ht hk
    obtain ⟨a, v, _, e2, _, e4⟩ := hv i t ht
    refine h5 i ?_
    rcases Pruner.judge_cases e4 with ⟨_, q⟩ | ⟨q, _⟩
    · rw [e2, q]
    · rw [hk] at q; simp at q
  -- a token that is removed although it occurs
  have hrem : ∀ i t a v, vocab[i]? = some t → 0 < tokenCount idss i → i ∉ ids → alts[i]? = some a → vs[i]? = some v →
      Pruner.judge samples.length vocab.length freqs i t a = .ok v → t.keep = false ∧ a.2 ≠ [] := by
    intro i t a v ht hc hni _ hvi hj
    rcases Pruner.judge_cases hj with ⟨_, q⟩ | ⟨hk, f, hf, q⟩
    · exact absurd (h5 i (by rw [hvi, q])) hni
    · rw [hget i t ht, Option.some.injEq] at hf
      rcases q with ⟨q, _⟩ | ⟨_, _, q⟩ | ⟨_, q, _⟩ | ⟨q, _⟩
      · omega
      · exact absurd (h5 i (by rw [hvi, q])) hni
      · exact ⟨hk, q⟩
      · omega
  refine ⟨w, ids, fun i => ((alts[i]?).map (·.2)).getD [], rfl, h3, h4, hkeep, ?_, ?_, ?_, ?_⟩
  · intro i t ht hne
    obtain ⟨a, v, e1, _, e3, _⟩ := hv i t ht
    simp only [halt i a e1] at hne ⊢
    exact e3.2 hne
  · intro hheap hwf hscores hlens i t ht hrep
    obtain ⟨alts', f2, hseg', hall⟩ := Pruner.segmentTokens_f64 hsize hwf (by norm_num : (0 : ℝ) ≤ 64) le_rfl hscores hlens rnd vocab
      (fun _ h => h) (VecPool.withCapacity 32) Lattice.new (.start 32)
    have e := hseg (max f1 f2) (by omega)
    rw [hheap, hseg' (max f1 f2) (by omega), Except.ok.injEq] at e
    subst e
    obtain ⟨a, v, e1, _, _, _⟩ := hv i t ht
    simp only [halt i a e1]
    exact forall₂_get hall ht e1 hrep
  · intro i t ht hc hni
    obtain ⟨a, v, e1, e2, e3, e4⟩ := hv i t ht
    obtain ⟨g1, g2⟩ := hrem i t a v ht hc hni e1 e2 e4
    obtain ⟨l, rfl, _⟩ := hloss i t a v ht g1 hc e1 e2 e3 e4 g2
    simp only [halt i a e1]
    exact ⟨g2, h9 i l e2 hni⟩
  · intro i t j u ht hc hni hu hcu hj hku hne
    obtain ⟨a, v, e1, e2, e3, e4⟩ := hv i t ht
    obtain ⟨a', v', e1', e2', e3', e4'⟩ := hv j u hu
    simp only [halt i a e1, halt j a' e1'] at hne ⊢
    obtain ⟨g1, g2⟩ := hrem i t a v ht hc hni e1 e2 e4
    obtain ⟨l, rfl, f1, d1⟩ := hloss i t a v ht g1 hc e1 e2 e3 e4 g2
    obtain ⟨l', rfl, f2, d2⟩ := hloss j u a' v' hu hku hcu e1' e2' e3' e4' hne
    have hlt := F64.real_lt f2 f1 (h10 F64.trainLaws j l' i l e2' hj e2 hni)
    rw [abs_le] at d1 d2
    rw [add_div, mul_add]
    linarith

/-! ### Non-vacuity -/

/-- The tokens `a` (protected) and `aa`, both with score -1. -/
def clearVocab : List (ScoredToken F64) := [⟨[97], .num true (2 ^ 1074), true⟩, ⟨[97, 97], .num true (2 ^ 1074), false⟩]

omit [Elementary] in
theorem clear_encode : [['a', 'a']].mapM (fun s => (Model.from_ clearVocab).encode s (.num false 0) (fun _ => .num false 0)) =
    .ok [[1]] := by decide +kernel

omit [Elementary] in
theorem clear_losses : ClearLosses 1 clearVocab (tokenCount [[1]]) := by
  refine ⟨by norm_num, ?_⟩
  intro i t alt ht hk hc hre
  have hi := (List.getElem?_eq_some_iff.1 ht).1
  have h1 : i = 1 := by
    have : i = 0 ∨ i = 1 := by simp [clearVocab] at hi; omega
    rcases this with rfl | rfl
    · simp [tokenCount] at hc
    · rfl
  subst h1
  have htt : t = ⟨[97, 97], .num true (2 ^ 1074), false⟩ := by
    simp only [clearVocab, List.getElem?_cons_succ, List.getElem?_cons_zero, Option.some.injEq] at ht
    exact ht.symm
  subst htt
  obtain ⟨l1, l2⟩ := resegments_length hre
  obtain ⟨l3, ⟨toks, e1, e2⟩, _⟩ := hre
  simp only [List.length_cons, List.length_nil] at l1
  obtain ⟨x, y, rfl⟩ := List.length_eq_two.1 (show alt.length = 2 by omega)
  have hxy : x = 0 ∧ y = 0 := by
    have hx := l2 x (by simp)
    have hy := l2 y (by simp)
    simp only [clearVocab, List.length_cons, List.length_nil] at hx hy
    have hx' : x = 0 ∨ x = 1 := by omega
    have hy' : y = 0 ∨ y = 1 := by omega
    match toks, e1 with
    | [t1, t2], e1 =>
      simp only [List.map_cons, List.map_nil, List.cons.injEq, and_true] at e1
      have e3 := congrArg List.length e2
      simp only [List.map_cons, List.map_nil, List.flatten_cons, List.flatten_nil, List.length_append, List.length_nil, List.length_cons] at e3
      rcases hx' with rfl | rfl <;> rcases hy' with rfl | rfl <;>
        simp only [clearVocab, List.getElem?_cons_succ, List.getElem?_cons_zero, Option.some.injEq] at e1 <;>
        obtain ⟨rfl, rfl⟩ := e1 <;> simp at e3 ⊢
    | [], e1 => simp at e1
    | [_], e1 => simp at e1
    | _ :: _ :: _ :: _, e1 => simp at e1
  obtain ⟨rfl, rfl⟩ := hxy
  have hS : ((List.range clearVocab.length).map (tokenCount [[1]])).sum = 1 := by decide
  have hc0 : tokenCount [[1]] 0 = 0 := by decide
  have hc1 : tokenCount [[1]] 1 = 1 := by decide
  refine ⟨by simp, by rw [hS, hc1]; simp [clearVocab], ?_⟩
  unfold pruneLoss
  simp only [hS, hc1, hc0, List.map_cons, List.map_nil, List.sum_cons, List.sum_nil]
  have hl : (1 / 2 : ℝ) ≤ Real.log 2 := by
    have := Real.one_sub_inv_le_log_of_pos (show (0 : ℝ) < 2 by norm_num)
    linarith
  have e : ((1 : ℕ) : ℝ) + ((1 : ℕ) : ℝ) * ((clearVocab.length - 1 : ℕ) : ℝ) = 2 := by
    simp only [clearVocab, List.length_cons, List.length_nil]; norm_num
  rw [e]
  norm_num
  rw [abs_of_nonneg (by linarith)]
  linarith

/-- The hypotheses are met: with some logarithm that errs by at most 2^-42, a prune step takes the token `aa` away. -/
example : ∃ E : Elementary, ∃ m', @Pruner.PruneStep F64 (@F64.instTrainOpsOfElementary E) ⟨1, fun n => n / 2, 0, .num false 0⟩
    ⟨agendaHeap F64, insertSorter _, insertSorter _⟩ [['a', 'a']] (Model.from_ clearVocab) m' ∧
    ∃ w, m' = Model.from_ w ∧ (⟨[97], .num true (2 ^ 1074), true⟩ : ScoredToken F64) ∈ w := by
  obtain ⟨E, hE, _⟩ := ln_exists
  have hstd : @StdLaws F64 _ ⟨agendaHeap F64, insertSorter _, insertSorter _⟩ := ⟨⟨_, agenda_laws⟩, insertSorter_laws _, insertSorter_laws _⟩
  obtain ⟨freqs, hf⟩ := Pruner.frequencies_exist clearVocab (fun _ => F64.nan) [['a', 'a']]
    (fun s hs => C04_dropout_total _ s _ _ (fun x hx => by
      rw [List.mem_singleton.1 hs] at hx
      have hall : ∀ x ∈ enc ['a', 'a'], x = 97 := by decide
      rw [hall x hx]
      exact ⟨⟨[97], .num true (2 ^ 1074), true⟩, by simp [clearVocab], rfl⟩))
  have hε : ((1 : ℝ) / 2) ^ 42 ≤ (1 / 2) ^ 40 := by norm_num
  obtain ⟨w, fuel₀, hw⟩ := C104_doubles_partial hE hε ⟨1, fun n => n / 2, 0, .num false 0⟩ _ hstd [['a', 'a']] clearVocab (by decide)
    (by intro t ht; simp only [clearVocab, List.mem_cons, List.not_mem_nil, or_false] at ht; rcases ht with rfl | rfl <;> simp)
    [[1]] clear_encode clear_losses (fun _ => F64.nan) freqs hf
  have hstep : Pruner.PruneStep ⟨1, fun n => n / 2, 0, .num false 0⟩ _ [['a', 'a']] (Model.from_ clearVocab) (Model.from_ w) :=
    ⟨_, freqs, w, fuel₀, hf, hw, rfl⟩
  refine ⟨E, _, hstep, ?_⟩
  obtain ⟨w', ids, _, e, _, h2, h3, _⟩ := C65_doubles hE hε _ _ hstd [['a', 'a']] clearVocab (by decide) [[1]] clear_encode clear_losses _ hstep
  refine ⟨w', e, entriesAt_mem h2 (h3 0 _ rfl rfl) rfl⟩

end Tokengeex

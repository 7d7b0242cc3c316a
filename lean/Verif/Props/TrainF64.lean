import Verif.Proofs.EStepF64
import Verif.Props.ReestimateF64
import Verif.Props.EM
/-
Expectation maximisation with doubles (C78).
-/
namespace Tokengeex
open Spec

/-- **C79** (any arithmetic) Whatever the arithmetic, the number of threads and their interleaving: the frequency of every token
is the sum, in some order, of what the workers have computed for it on their shares of the samples. Nothing is lost or added
twice. -/
theorem C79_any_order {F : Type} [TrainOps F] {m : Model F} {dropout : F} {samples : List Str} {freqs : List F}
    (h : Pruner.EStep m dropout samples freqs) :
    ∃ n sts, 0 < n ∧ List.Forall₂ (fun chunk st => ∃ rnd, Pruner.eChunk m dropout rnd chunk (Pruner.eInit m) = .ok st)
        (Parallel.chunks n samples) sts ∧
      freqs.length = m.vocabSize ∧
      ∀ (i : Nat) (x : F), freqs[i]? = some x →
        ∃ l : List F, l.Perm (sts.flatMap fun st => st.expected[i]?.toList) ∧ x = l.foldl ScoreOps.add ScoreOps.zero :=
  Pruner.eStep_fold h

/-- **C78** (E-step, doubles) If `exp` and `ln` are computed up to 2⁻⁴⁰, then on a vocabulary and corpus fit for doubles: if no
byte ends tokens of more than 9/10 of the probability, no worker panics, whatever the dropout, its random numbers and its share
of the samples, and the E-step returns; and in any case the frequencies that it returns are finite and less than 2⁴⁴. -/
theorem C78_e_step_doubles [Elementary] {ε η : ℝ} (hln : LnWithin ε) (hexp : ExpWithin η) (hε : ε ≤ (1 / 2) ^ 40) (hη : η ≤ (1 / 2) ^ 40)
    (vocab : List (ScoredToken F64)) (samples : List Str) (hfit : FitForDoubles vocab samples) (dropout : F64) :
    (Spread vocab → (∀ (chunk : List Str) (rnd : Nat → F64), chunk.Sublist samples →
        ∃ st, Pruner.eChunk (Model.from_ vocab) dropout rnd chunk (Pruner.eInit (Model.from_ vocab)) = .ok st) ∧
      ∃ freqs, Pruner.EStep (Model.from_ vocab) dropout samples freqs) ∧
    ∀ freqs, Pruner.EStep (Model.from_ vocab) dropout samples freqs →
      freqs.length = vocab.length ∧ ∀ f ∈ freqs, Spec.Finite f ∧ |real f| ≤ 2 ^ 43 := by
  have hcov : ∀ s ∈ samples, BytesCovered vocab (enc s) := by
    intro s hs b hb
    obtain ⟨t, ht, e, _⟩ := hfit.covered s hs b hb
    exact ⟨t, ht, e⟩
  have hb' : Pruner.bytesOf samples ≤ 2 ^ 40 := hfit.bytes
  refine ⟨fun hsp => ?_, fun freqs h => Pruner.eStep_bounds hln hexp hε hη hfit h⟩
  have hw : ∀ (chunk : List Str) (rnd : Nat → F64), chunk.Sublist samples →
      ∃ st, Pruner.eChunk (Model.from_ vocab) dropout rnd chunk (Pruner.eInit (Model.from_ vocab)) = .ok st := by
    intro chunk rnd hc
    have hb := Pruner.bytesOf_sublist hc
    exact (Pruner.eChunk_doubles hln hexp hε hη hfit.scores hfit.lengths dropout rnd chunk 0 _ (Pruner.bounded_init vocab) (by omega)
      (fun s hs => hcov s (hc.subset hs))).1 hsp
  exact ⟨hw, Pruner.eStep_returns _ _ _ (fun _ => F64.num false 0) (fun c hc => hw c _ (Pruner.chunk_sublist (by omega) hc))⟩

/-- Scores that the M-step computes are at least -64. -/
theorem reestimated_scores {vocab : List (ScoredToken F64)} {freqs : List ℝ} {w : List (ScoredToken F64)} (hn : vocab.length ≤ 2 ^ 24)
    (hf : ∀ f ∈ freqs, f ≤ 2 ^ 43) (h : ReestimatedDoubles vocab freqs w) : ∀ t ∈ w, Spec.Finite t.score ∧ |real t.score| ≤ 64 := by
  unfold ReestimatedDoubles at h
  have hk : ∀ p ∈ keptBy vocab freqs, max p.2 (1 / 2) ≤ 2 ^ 43 := by
    intro p hp
    have h1 := (List.mem_filter.1 hp).1
    exact max_le (hf _ (List.of_mem_zip (a := p.1) (b := p.2) h1).2) (by norm_num)
  have hl : (keptBy vocab freqs).length ≤ 2 ^ 24 := by
    refine (List.length_filter_le _ _).trans ?_
    rw [List.length_zip]
    omega
  have hS : ((keptBy vocab freqs).map fun p => max p.2 (1 / 2)).sum ≤ 2 ^ 67 := by
    have h1 : ((keptBy vocab freqs).map fun p => max p.2 (1 / 2)).sum ≤ (keptBy vocab freqs).length * 2 ^ 43 := by
      have := List.sum_le_card_nsmul ((keptBy vocab freqs).map fun p => max p.2 (1 / 2)) (2 ^ 43) (by
        intro x hx
        obtain ⟨p, hp, rfl⟩ := List.mem_map.1 hx
        exact hk p hp)
      rwa [List.length_map, nsmul_eq_mul] at this
    have h2 : ((keptBy vocab freqs).length : ℝ) ≤ 2 ^ 24 := by exact_mod_cast hl
    have h3 := mul_le_mul_of_nonneg_right h2 (show (0 : ℝ) ≤ 2 ^ 43 by norm_num)
    norm_num at h1 h3 ⊢
    linarith
  have hmem : ∀ p ∈ keptBy vocab freqs, max p.2 (1 / 2) ≤ ((keptBy vocab freqs).map fun p => max p.2 (1 / 2)).sum := by
    intro p hp
    refine List.single_le_sum ?_ _ (List.mem_map_of_mem hp)
    intro x hx
    obtain ⟨q, _, rfl⟩ := List.mem_map.1 hx
    exact le_trans (by norm_num) (le_max_right _ _)
  generalize ((keptBy vocab freqs).map fun p => max p.2 (1 / 2)).sum = S at *
  generalize keptBy vocab freqs = kept at *
  intro t ht
  have : ∃ p ∈ kept, Spec.Finite t.score ∧ |real t.score - (psi (max p.2 (1 / 2)) - psi S)| ≤ 1 / 10000000 := by
    clear hk hl hmem hS
    induction h with
    | nil => simp at ht
    | cons h1 _ ih =>
      rcases List.mem_cons.1 ht with rfl | ht
      · exact ⟨_, List.mem_cons_self .., h1.2⟩
      · obtain ⟨p, hp, h2⟩ := ih ht
        exact ⟨p, List.mem_cons_of_mem _ hp, h2⟩
  obtain ⟨p, hp, h1, h2⟩ := this
  refine ⟨h1, ?_⟩
  have hx : (1 : ℝ) / 2 ≤ max p.2 (1 / 2) := le_max_right _ _
  have hxS := hmem p hp
  generalize max p.2 (1 / 2) = x at *
  have p1 := psi_mono (by norm_num) hx
  have p2 := psi_mono (by linarith) hxS
  have p3 := psi_le_log (x := S) (by linarith)
  have p4 := log_le_psi (x := 1 / 2) (by norm_num)
  have hlog2 := Real.log_two_lt_d9
  have p5 : Real.log S ≤ 67 * Real.log 2 := by
    have := Real.log_le_log (by linarith) hS
    rw [Real.log_pow] at this
    exact_mod_cast this
  have p6 : Real.log (1 / 2) = -Real.log 2 := by rw [one_div, Real.log_inv]
  rw [p6] at p4
  norm_num at p4
  obtain ⟨a1, a2⟩ := abs_le.1 h2
  rw [abs_le]
  constructor <;> linarith

theorem Pruner.emStep_fit [Elementary] {ε η : ℝ} (hln : LnWithin ε) (hexp : ExpWithin η) (hε : ε ≤ (1 / 2) ^ 40) (hη : η ≤ (1 / 2) ^ 40)
    {c : Pruner F64} {samples : List Str} {vocab : List (ScoredToken F64)} (hfit : FitForDoubles vocab samples) {m' : Model F64}
    (h : EMStep c samples (Model.from_ vocab) m') : ∃ w, m' = Model.from_ w ∧ PrunedTo vocab w ∧ FitForDoubles w samples := by
  obtain ⟨w, rfl, hw⟩ := emStep_prunedTo h
  refine ⟨w, rfl, hw, (prunedTo_length hw).trans hfit.size, ?_, ?_, fun s hs => prunedTo_bytesKept hw (hfit.covered s hs), hfit.number,
    hfit.bytes⟩
  · obtain ⟨freqs, v, fuel₀, h1, h2, h3⟩ := h
    obtain ⟨hl, hb⟩ := eStep_bounds hln hexp hε hη hfit h1
    obtain ⟨v', h4, h5⟩ := C80_m_step_doubles hln hε vocab freqs hl hfit.size
      (fun f hf => ⟨(hb f hf).1, (le_abs_self _).trans ((hb f hf).2.trans (by norm_num))⟩) (max fuel₀ 8) (le_max_right _ _)
    rw [h2 _ (le_max_left _ _)] at h4
    cases h4
    have hv : w = v := by
      have := congrArg Model.vocab h3
      rwa [Model.from_vocab, Model.from_vocab] at this
    subst hv
    refine reestimated_scores hfit.size ?_ h5
    intro f hf
    obtain ⟨x, hx, rfl⟩ := List.mem_map.1 hf
    exact (le_abs_self _).trans (hb x hx).2
  · intro t ht
    obtain ⟨u, hu, h1, _⟩ := prunedTo_value hw ht
    rw [← h1]
    exact hfit.lengths u hu

theorem Pruner.emSteps_fit [Elementary] {ε η : ℝ} (hln : LnWithin ε) (hexp : ExpWithin η) (hε : ε ≤ (1 / 2) ^ 40) (hη : η ≤ (1 / 2) ^ 40)
    {c : Pruner F64} {samples : List Str} {n : Nat} {m m' : Model F64} (h : EMSteps c samples n m m') :
    ∀ vocab, m = Model.from_ vocab → FitForDoubles vocab samples → ∃ w, m' = Model.from_ w ∧ PrunedTo vocab w ∧ FitForDoubles w samples := by
  induction h with
  | zero m => intro vocab hm hf; exact ⟨vocab, hm, prunedTo_refl _, hf⟩
  | succ h1 _ ih =>
    intro vocab hm hf
    subst hm
    obtain ⟨w, e, h2, h3⟩ := emStep_fit hln hexp hε hη hf h1
    obtain ⟨w', e', h4, h5⟩ := ih w e h3
    exact ⟨w', e', prunedTo_trans h2 h4, h5⟩

namespace Pruner
variable {F : Type} [TrainOps F]

theorem digamma_more {a b : Nat} {x v : F} (h : a ≤ b) (h1 : digamma a x = .ok v) : digamma b x = .ok v := by
  unfold digamma at h1 ⊢
  cases hl : digammaLoop a (RealOps.ofNat 0) x with
  | error e => rw [hl] at h1; cases h1
  | ok r =>
    rw [hl] at h1
    rw [digammaLoop_more a b _ _ r h hl]
    exact h1

theorem mapM_more {α β : Type} {f g : α → Res β} (h : ∀ x v, f x = .ok v → g x = .ok v) : ∀ (l : List α) (vs : List β),
    l.mapM f = .ok vs → l.mapM g = .ok vs := by
  intro l
  induction l with
  | nil => intro vs h1; exact h1
  | cons x l ih =>
    intro vs h1
    rw [List.mapM_cons] at h1 ⊢
    cases hx : f x with
    | error e => rw [hx] at h1; cases h1
    | ok v =>
      rw [hx] at h1
      rw [h x v hx]
      cases hl : l.mapM f with
      | error e =>
        simp only [res_bind_ok] at h1
        rw [hl] at h1
        cases h1
      | ok ws =>
        simp only [res_bind_ok] at h1 ⊢
        rw [hl] at h1
        rw [ih ws hl]
        exact h1

/-- More rounds for the loop of `digamma` do not change what the M-step returns. -/
theorem mStep_more {m : Model F} {freqs : List F} {a b : Nat} {v : List (ScoredToken F)} (h : a ≤ b) (h1 : mStep m freqs a = .ok v) :
    mStep m freqs b = .ok v := by
  unfold mStep at h1 ⊢
  by_cases hl : m.vocabSize ≠ freqs.length
  · rw [if_pos hl] at h1; cases h1
  · rw [if_neg hl] at h1 ⊢
    dsimp only at h1 ⊢
    cases hd : digamma a (((alternativeVocab m.vocab freqs).map (·.score)).foldl ScoreOps.add ScoreOps.zero) with
    | error e => rw [hd] at h1; cases h1
    | ok d =>
      rw [hd] at h1
      rw [digamma_more h hd]
      simp only [res_bind_ok] at h1 ⊢
      cases hm : (alternativeVocab m.vocab freqs).mapM (fun t => do
          let d' ← digamma a t.score
          pure (RealOps.sub d' d)) with
      | error e => rw [hm] at h1; cases h1
      | ok ws =>
        rw [hm] at h1
        rw [mapM_more (g := fun t => do
          let d' ← digamma b t.score
          pure (RealOps.sub d' d)) ?_ _ ws hm]
        · exact h1
        · intro t v' ht
          cases hx : digamma a t.score with
          | error e => rw [hx] at ht; cases ht
          | ok y =>
            rw [hx] at ht
            rw [digamma_more h hx]
            exact ht

end Pruner

/-- **C78** (doubles) If `exp` and `ln` are computed up to 2⁻⁴⁰, a vocabulary and corpus fit for doubles stay so during any number
of EM iterations; the M-step returns whatever the E-step has computed; and in every iteration that starts from a vocabulary in
which no byte ends tokens of more than 9/10 of the probability, no worker of the E-step panics, whatever the dropout and the
random numbers, and the iteration can be completed. -/
theorem C78_em_doubles [Elementary] {ε η : ℝ} (hln : LnWithin ε) (hexp : ExpWithin η) (hε : ε ≤ (1 / 2) ^ 40) (hη : η ≤ (1 / 2) ^ 40)
    (c : Pruner F64) (samples : List Str) (vocab : List (ScoredToken F64)) (hfit : FitForDoubles vocab samples) (n : Nat) (m' : Model F64)
    (h : Pruner.EMSteps c samples n (Model.from_ vocab) m') :
    ∃ w, m' = Model.from_ w ∧ PrunedTo vocab w ∧ FitForDoubles w samples ∧
      (∀ freqs, Pruner.EStep m' c.dropout samples freqs → ∃ v, ∀ fuel ≥ 8, Pruner.mStep m' freqs fuel = .ok v) ∧
      (Spread w → (∀ (chunk : List Str) (rnd : Nat → F64), chunk.Sublist samples →
          ∃ st, Pruner.eChunk m' c.dropout rnd chunk (Pruner.eInit m') = .ok st) ∧
        ∃ m'', Pruner.EMStep c samples m' m'') := by
  obtain ⟨w, rfl, h1, h2⟩ := Pruner.emSteps_fit hln hexp hε hη h vocab rfl hfit
  obtain ⟨e1, e2⟩ := C78_e_step_doubles hln hexp hε hη w samples h2 c.dropout
  have hm : ∀ freqs, Pruner.EStep (Model.from_ w) c.dropout samples freqs →
      ∃ v, ∀ fuel ≥ 8, Pruner.mStep (Model.from_ w) freqs fuel = .ok v := by
    intro freqs hf
    obtain ⟨hl, hb⟩ := e2 freqs hf
    obtain ⟨v, hv, _⟩ := C80_m_step_doubles hln hε w freqs hl h2.size
      (fun f hf => ⟨(hb f hf).1, (le_abs_self _).trans ((hb f hf).2.trans (by norm_num))⟩) 8 (le_refl _)
    exact ⟨v, fun fuel hfuel => Pruner.mStep_more hfuel hv⟩
  refine ⟨w, rfl, h1, h2, hm, fun hsp => ?_⟩
  obtain ⟨g1, freqs, hf⟩ := e1 hsp
  obtain ⟨v, hv⟩ := hm freqs hf
  exact ⟨g1, _, freqs, v, 8, hf, hv, rfl⟩

/-! ### The hypotheses can be met -/

/-- The tokens `"a"` and `"b"`, protected, and `"ab"`, of scores -1, -1 and -2. -/
def trainDoubles : List (ScoredToken F64) :=
  [⟨[97], F64.neg (F64.whole 1), true⟩, ⟨[98], F64.neg (F64.whole 1), true⟩, ⟨[97, 98], F64.neg (F64.whole 2), false⟩]

theorem real_negWhole {n : Nat} (h : n ≤ 3) : real (F64.neg (F64.whole n)) = -(n : ℝ) := by
  obtain ⟨_, g2⟩ := F64.finite_real_neg (F64.whole_finite (n := n) (by omega))
  rw [g2, F64.real_whole]

theorem trainDoubles_mem {t : ScoredToken F64} (h : t ∈ trainDoubles) : ∃ (v : Token) (n : Nat) (k : Bool), n ≤ 3 ∧ v.length ≤ 2 ∧
    t = ⟨v, F64.neg (F64.whole n), k⟩ := by
  rcases List.mem_cons.1 h with rfl | h
  · exact ⟨_, 1, _, by omega, by simp, rfl⟩
  rcases List.mem_cons.1 h with rfl | h
  · exact ⟨_, 1, _, by omega, by simp, rfl⟩
  rcases List.mem_cons.1 h with rfl | h
  · exact ⟨_, 2, _, by omega, by simp, rfl⟩
  · exact absurd h (List.not_mem_nil)

theorem trainDoubles_fit : FitForDoubles trainDoubles [['a', 'b'], ['b']] := by
  refine ⟨by simp [trainDoubles], ?_, ?_, ?_, by simp, ?_⟩
  · intro t ht
    obtain ⟨v, n, k, h1, _, rfl⟩ := trainDoubles_mem ht
    obtain ⟨g1, g2⟩ := negWhole h1
    exact ⟨g1, g2.trans (by norm_num)⟩
  · intro t ht
    obtain ⟨v, n, k, _, h2, rfl⟩ := trainDoubles_mem ht
    exact h2.trans (by norm_num)
  · have ha : ∃ t ∈ trainDoubles, t.value = [97] ∧ t.keep = true := ⟨_, List.mem_cons_self .., rfl, rfl⟩
    have hb : ∃ t ∈ trainDoubles, t.value = [98] ∧ t.keep = true := ⟨_, List.mem_cons_of_mem _ (List.mem_cons_self ..), rfl, rfl⟩
    intro s hs b hb'
    have h1 : enc ['a', 'b'] = [97, 98] := by decide +kernel
    have h2 : enc ['b'] = [98] := by decide +kernel
    rcases List.mem_cons.1 hs with rfl | hs
    · rw [h1] at hb'
      rcases List.mem_cons.1 hb' with rfl | hb'
      · exact ha
      · rw [List.mem_singleton.1 hb']
        exact hb
    · rw [List.mem_singleton.1 hs, h2] at hb'
      rw [List.mem_singleton.1 hb']
      exact hb
  · have : (([['a', 'b'], ['b']] : List Str).map fun s => (enc s).length).sum = 3 := by decide +kernel
    rw [this]
    norm_num

theorem trainDoubles_spread : Spread trainDoubles := by
  have e1 : Real.exp (-1) ≤ 2 / 5 := by
    have := Real.exp_neg_one_lt_d9
    linarith
  have e2 : Real.exp (-2) ≤ 2 / 5 := (Real.exp_le_exp.2 (by norm_num)).trans e1
  have e0 := Real.exp_pos (-1)
  have e0' := Real.exp_pos (-2)
  have r1 : real (F64.neg (F64.whole 1)) = -1 := (real_negWhole (by omega)).trans (by norm_num)
  have r2 : real (F64.neg (F64.whole 2)) = -2 := (real_negWhole (by omega)).trans (by norm_num)
  intro b
  unfold trainDoubles
  generalize F64.neg (F64.whole 1) = x at *
  generalize F64.neg (F64.whole 2) = y at *
  by_cases h1 : b = 97
  · subst h1
    simp [r1]
    linarith
  by_cases h2 : b = 98
  · subst h2
    simp [r1, r2]
    linarith
  · have h1' : ¬ (97 : UInt8) = b := fun e => h1 e.symm
    have h2' : ¬ (98 : UInt8) = b := fun e => h2 e.symm
    simp [h1', h2']
    norm_num

/-- Non-vacuity: there are functions for which an EM iteration on this vocabulary can be completed. -/
example : ∃ (_ : Elementary) (m' : Model F64),
    Pruner.EMStep (⟨2, id, 2, F64.num false 0⟩ : Pruner F64) [['a', 'b'], ['b']] (Model.from_ trainDoubles) m' := by
  obtain ⟨E, h1, _, h2⟩ := elementary_exists
  obtain ⟨w, h3, _, _, _, h4⟩ := @C78_em_doubles E _ _ h1 h2 (by norm_num) (by norm_num) ⟨2, id, 2, F64.num false 0⟩ _ _
    trainDoubles_fit 0 _ (.zero _)
  have : w = trainDoubles := by
    have := congrArg Model.vocab h3
    rw [Model.from_vocab, Model.from_vocab] at this
    exact this.symm
  subst this
  obtain ⟨_, m', h5⟩ := h4 trainDoubles_spread
  exact ⟨E, m', h5⟩

/-- Two tokens, the first of which has probability 1. -/
def certainDoubles : List (ScoredToken F64) := [⟨[97], F64.num false 0, true⟩, ⟨[98], F64.neg (F64.whole 1), true⟩]

theorem certain_entries (es : List (Entry F64)) (hT : ∀ e ∈ es, TokenAt certainDoubles [97] e)
    (hd : es.Pairwise (fun a b => ¬ (a.pos = b.pos ∧ a.len = b.len)))
    (hone : ∀ e, TokenAt certainDoubles [97] e → e.len = 1 → e ∈ es) : es = [⟨0, 0, 1, F64.num false 0⟩] := by
  have hi : LastIndex certainDoubles [97] 0 := by
    refine ⟨⟨_, rfl, rfl⟩, ?_⟩
    intro j t hj ht
    match j, hj, ht with
    | 1, _, ht =>
      cases ht
      simp
    | j + 2, _, ht => simp [certainDoubles] at ht
  have ht : certainDoubles[0]? = some ⟨[97], F64.num false 0, true⟩ := rfl
  have hall : ∀ e ∈ es, e = ⟨0, 0, 1, F64.num false 0⟩ := by
    intro e he
    obtain ⟨h1, h2, h3, u, hu, hs'⟩ := hT e he
    simp only [List.length_singleton] at h2
    have hp : e.pos = 0 := by omega
    have hl : e.len = 1 := by omega
    rw [hp, hl] at h3
    have hid : e.id = 0 := by
      rcases Nat.eq_zero_or_pos e.id with h | h
      · exact h
      · obtain ⟨x, hx, hv⟩ := h3.1
        exact absurd hv (hi.2 e.id x h hx)
    rw [hid, ht] at hu
    cases hu
    cases e
    simp_all
  have hmem : (⟨0, 0, 1, F64.num false 0⟩ : Entry F64) ∈ es := hone _ ⟨by simp, by simp, by simpa using hi, _, ht, rfl⟩ rfl
  match es, hall, hmem, hd with
  | [], _, hm, _ => simp at hm
  | [e], ha, _, _ => rw [ha e (by simp)]
  | e :: f :: l, ha, _, hd =>
    rw [ha e (by simp), ha f (by simp)] at hd
    simp at hd

theorem certain_marginal [Elementary] (x y : F64) :
    ∃ ex, (latticeOf [97] [(⟨0, 0, 1, F64.num false 0⟩ : Entry F64)]).populateMarginal [x, y] = .ok (ex, F64.num false 0) := by
  have h0 : F64.add (F64.num false 0) (F64.num false 0) = F64.num false 0 := by decide +kernel
  have hl : ∀ y : F64, logSumExp (F64.num false 0) y true = y := fun y => by unfold logSumExp; rw [if_pos rfl]
  have ha : (latticeOf [97] [(⟨0, 0, 1, F64.num false 0⟩ : Entry F64)]).forwardTable
      = .ok [F64.num false 0, F64.num false 0, F64.num false 0] := by
    simp [Lattice.forwardTable, latticeOf, nodesWhere, List.range_succ, Lattice.accPos, Lattice.accSource, idx, setIdx,
      LNode.new, hl, ScoreOps.zero, ScoreOps.add, h0]
  have hb : (latticeOf [97] [(⟨0, 0, 1, F64.num false 0⟩ : Entry F64)]).backwardTable
      = .ok [F64.num false 0, F64.num false 0, F64.num false 0] := by
    simp [Lattice.backwardTable, latticeOf, nodesWhere, List.range_succ, Lattice.accPos, Lattice.accSource, idx, setIdx,
      LNode.new, hl, ScoreOps.zero, ScoreOps.add, h0]
  unfold Lattice.populateMarginal
  rw [ha, hb]
  simp [latticeOf, nodesWhere, List.range_succ, Lattice.addMarginal, idx, setIdx, LNode.new, ScoreOps.zero]

/-- **C78** (doubles) The condition on the probabilities is needed, whatever `exp` and `ln`: a worker that gets a sample of
probability 1 panics, although vocabulary and corpus are fit. -/
theorem C78_certain_false [Elementary] : FitForDoubles certainDoubles [['a']] ∧ ∀ (dropout : F64) (rnd : Nat → F64),
    Pruner.eChunk (Model.from_ certainDoubles) dropout rnd [['a']] (Pruner.eInit (Model.from_ certainDoubles)) = .error .panic := by
  have henc : enc ['a'] = [97] := by decide +kernel
  constructor
  · refine ⟨by simp [certainDoubles], ?_, ?_, ?_, by simp, ?_⟩
    · intro t ht
      obtain ⟨z1, z2⟩ := zero_double
      rcases List.mem_cons.1 ht with rfl | ht
      · exact ⟨z1, by rw [z2, abs_zero]; norm_num⟩
      · rw [List.mem_singleton.1 ht]
        obtain ⟨g1, g2⟩ := negWhole (n := 1) (by omega)
        exact ⟨g1, g2.trans (by norm_num)⟩
    · intro t ht
      rcases List.mem_cons.1 ht with rfl | ht
      · simp
      · rw [List.mem_singleton.1 ht]
        simp
    · intro s hs b hb
      rw [List.mem_singleton.1 hs, henc] at hb
      rw [List.mem_singleton.1 hb]
      exact ⟨_, List.mem_cons_self .., rfl, rfl⟩
    · have : (([['a']] : List Str).map fun s => (enc s).length).sum = 1 := by decide +kernel
      rw [this]
      norm_num
  · intro dropout rnd
    have hc : Parallel.chunks Pruner.maxSampleLength [(97 : UInt8)] = [[97]] := by
      rw [Parallel.chunks, dif_neg (by simp [Pruner.maxSampleLength]), List.take_of_length_le (by simp [Pruner.maxSampleLength]),
        List.drop_of_length_le (by simp [Pruner.maxSampleLength]), Parallel.chunks, dif_pos (by simp)]
    unfold Pruner.eChunk
    rw [List.foldlM_cons, henc, hc, List.foldlM_cons]
    obtain ⟨b1, b2, _⟩ := Pruner.bounded_init certainDoubles
    generalize Pruner.eInit (Model.from_ certainDoubles) = st at *
    obtain ⟨pool', hfrom, _⟩ := from_clean st.lattice [97] (history_clean b1)
    obtain ⟨es, k, hpop, hT, hd, hone, _⟩ := C33_populate certainDoubles [97] dropout (fun i => rnd (st.draws + i))
    rw [certain_entries es hT hd hone] at hpop
    obtain ⟨x, y, hxy⟩ : ∃ x y, st.expected = [x, y] := by
      match h : st.expected, b2 with
      | [x, y], _ => exact ⟨x, y, rfl⟩
    obtain ⟨ex, hm⟩ := certain_marginal x y
    unfold Pruner.eSnippet
    rw [hfrom]
    simp only [res_bind_ok]
    rw [hpop]
    simp only [res_bind_ok]
    rw [hxy, hm]
    simp only [res_bind_ok]
    rfl

end Tokengeex

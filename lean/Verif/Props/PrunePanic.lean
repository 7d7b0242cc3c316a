import Verif.Props.Prune
/-
C104: pruning can panic on a corpus that it can encode.
-/
namespace Tokengeex
open Spec ScoreOps RealOps Relation

namespace Pruner
section
variable {F : Type} [TrainOps F]

/-- The only way in which the loop over the vocabulary fails is a panic. -/
theorem judge_error {numSamples numAlts : Nat} {freqs : List Nat} {i : Nat} {t : ScoredToken F} {a : Bool × List Nat}
    {e : Err} (h : judge numSamples numAlts freqs i t a = .error e) : e = .panic := by
  have hidx : ∀ {α : Type} {l : List α} {j : Nat} {e : Err}, idx l j = .error e → e = .panic := by
    intro α l j e h
    unfold idx at h
    cases hx : l[j]? with
    | none => rw [hx] at h; simpa using h.symm
    | some x => rw [hx] at h; simp at h
  have hbind : ∀ {α β : Type} {x : Res α} {f : α → Res β} {e : Err}, (∀ e, x = .error e → e = .panic) →
      (∀ a e, f a = .error e → e = .panic) → (x >>= f) = .error e → e = .panic := by
    intro α β x f e h1 h2 h
    cases x with
    | error e' => exact h1 e (by simpa [bind, Except.bind] using h)
    | ok a => exact h2 a e (by simpa [bind, Except.bind] using h)
  have hpure : ∀ {α : Type} {a : α} {e : Err}, (pure a : Res α) = .error e → e = .panic := by
    intro α a e h; simp [pure, Except.pure] at h
  have hloss : ∀ e, lossOf (F := F) numSamples numAlts freqs i a.2 = .error e → e = .panic := by
    intro e h
    unfold lossOf at h
    refine hbind (fun e => hidx) ?_ h
    intro f e h
    simp only at h
    by_cases hn : numAlts = 0
    · rw [if_pos hn] at h; simpa using h.symm
    · rw [if_neg hn] at h
      refine hbind ?_ (fun _ _ => hpure) h
      intro e h
      have hfold : ∀ (alt : List Nat) (g : F → Nat → Res F) (x : F) (e : Err), (∀ x j e, g x j = .error e → e = .panic) →
          alt.foldlM g x = .error e → e = .panic := by
        intro alt g
        induction alt with
        | nil => intro x e _ h; exact hpure h
        | cons j alt ih =>
          intro x e hg h
          rw [List.foldlM_cons] at h
          exact hbind (hg x j) (fun y e h => ih y e hg h) h
      exact hfold _ _ _ _ (fun x j e => hbind (fun e => hidx) (fun _ _ => hpure)) h
  unfold judge at h
  by_cases hk : t.keep = true
  · rw [if_pos hk] at h; simp at h
  · rw [if_neg hk] at h
    refine hbind (fun e => hidx) ?_ h
    intro f e h
    by_cases h1 : (decide (f = 0) && !a.1) = true
    · rw [if_pos h1] at h; exact hpure h
    · rw [if_neg h1] at h
      by_cases h2 : a.2.isEmpty = true
      · rw [if_pos h2] at h; exact hpure h
      · rw [if_neg h2] at h
        by_cases h3 : f ≠ 0
        · rw [if_pos h3] at h
          refine hbind hloss ?_ h
          intro l e h
          by_cases h4 : (!TrainOps.isNormal l) = true
          · rw [if_pos h4] at h; simpa using h.symm
          · rw [if_neg h4] at h; exact hpure h
        · rw [if_neg h3] at h; exact hpure h

theorem judgeAll_panic {numSamples numAlts : Nat} {freqs : List Nat} : ∀ (l : List ((ScoredToken F × Nat) × (Bool × List Nat)))
    (st : List (Nat × F) × List (ScoredToken F)), (∃ x ∈ l, ∀ v, judge numSamples numAlts freqs x.1.2 x.1.1 x.2 ≠ .ok v) →
    judgeAll numSamples numAlts freqs l st = .error .panic := by
  intro l
  induction l with
  | nil => rintro st ⟨x, hx, _⟩; simp at hx
  | cons x l ih =>
    rintro st ⟨y, hy, hv⟩
    obtain ⟨⟨t, i⟩, a⟩ := x
    rw [judgeAll]
    cases hj : judge numSamples numAlts freqs i t a with
    | error e => rw [judge_error hj]; rfl
    | ok v =>
      have hy' : y ∈ l := by
        rcases List.mem_cons.1 hy with rfl | h
        · exact absurd hj (hv v)
        · exact h
      simp only [res_bind_ok]
      cases v <;> exact ih _ ⟨y, hy', hv⟩

end
end Pruner

/-- **C104** (when it panics) In exact arithmetic, on a well-formed vocabulary and a corpus that can be encoded: if some
unprotected token occurs in the encoded corpus, is worth more than every other way of cutting it, and the loss of removing it is
exactly 0, then a prune step panics, whatever its random numbers and the division of the work. -/
theorem C104_panics (c : Pruner ℝ) (std : Pruner.Std ℝ) (ok : List (Hypo ℝ) → Prop)
    (hheap : HeapLaws std.heap ok) (hmax : HeapMax std.heap ok) (samples : List Str) (vocab : List (ScoredToken ℝ))
    (hsize : vocab.length ≤ 4294967294) (hwf : WellFormed vocab) (idss : List (List Nat))
    (hids : samples.mapM (fun s => (Model.from_ vocab).encode s 0 (fun _ => 0)) = .ok idss)
    (i : Nat) (t : ScoredToken ℝ) (ht : vocab[i]? = some t) (hk : t.keep = false) (hc : 0 < tokenCount idss i)
    (hr : Replaceable vocab t)
    (hz : ∀ alt, BestAlternative vocab t.value alt → pruneLoss samples.length vocab.length (tokenCount idss) i alt = 0)
    (rnd : Nat → ℝ) (freqs : List Nat) (hfr : Pruner.Frequencies (Model.from_ vocab) rnd samples freqs) :
    ∃ fuel₀, ∀ fuel ≥ fuel₀, Pruner.pruneVocab c std (Model.from_ vocab) rnd samples.length freqs fuel = .error .panic := by
  have hids' : samples.mapM (fun s => (Model.from_ vocab).encode s zero rnd) = .ok idss := by
    rw [← hids]
    congr 1
    funext s
    exact C06_deterministic vocab s _ _ _ (by simp [ScoreOps.le, ScoreOps.zero])
  obtain ⟨val, hval, hfv⟩ := id hfr
  have hfreqs : freqs = (List.range vocab.length).map (tokenCount idss) := by
    rw [hfv, Model.vocabSize, Model.from_vocab]
    refine List.map_congr_left (fun i hi => ?_)
    exact C50_tokens (Model.from_ vocab) _ samples idss hids' val hval i
      (by rw [Model.vocabSize, Model.from_vocab]; exact List.mem_range.1 hi)
  obtain ⟨alts, fuel₁, hseg, halts⟩ := Pruner.segmentTokens_exact realExact hheap hmax hsize hwf rnd vocab (fun t ht => ht)
    (VecPool.withCapacity 32) Lattice.new (.start 32)
  have hlen : vocab.length = alts.length := halts.length_eq
  have hlt := (List.getElem?_eq_some_iff.1 ht).1
  have ha : alts[i]? = some alts[i] := List.getElem?_eq_getElem (by omega)
  have hex := forall₂_get halts ht ha
  have hj : Pruner.judgeAll samples.length vocab.length freqs (vocab.zipIdx.zip alts) (([], []) : List (Nat × ℝ) × _) = .error .panic := by
    refine Pruner.judgeAll_panic _ _ ⟨((t, i), alts[i]), ?_, ?_⟩
    · refine List.mem_iff_getElem?.2 ⟨i, ?_⟩
      rw [List.getElem?_zip_eq_some]
      exact ⟨by rw [List.getElem?_zipIdx, ht]; simp, ha⟩
    · intro v hv
      have hfi : freqs[i]? = some (tokenCount idss i) := by
        rw [hfreqs, List.getElem?_map, List.getElem?_range hlt]; rfl
      rcases Pruner.judge_cases hv with ⟨q, _⟩ | ⟨_, f, hf, q⟩
      · simp only [hk] at q; exact absurd q (by simp)
      · simp only [hfi, Option.some.injEq] at hf
        have hf0 : f ≠ 0 := by omega
        have hb : BestAlternative vocab t.value alts[i].2 := by
          rcases hex with ⟨_, _, x⟩ | ⟨_, x, _⟩ | ⟨_, _, alt, x, y⟩
          · exact absurd hr.1 x
          · exact x
          · rw [hr.2 alt x.1] at y; simp at y
        rcases q with ⟨q, _⟩ | ⟨_, q, _⟩ | ⟨_, _, l, q, q', _⟩ | ⟨q, _⟩
        · exact hf0 q
        · have := hb.1.1
          rw [q] at this
          simp at this
        · rw [lossOf_real hfreqs q, hz _ hb] at q'
          simp [TrainOps.isNormal] at q'
        · exact hf0 q
  refine ⟨fuel₁, fun fuel hf => ?_⟩
  rw [Pruner.pruneVocab, Model.from_vocab, hseg fuel hf]
  simp only [res_bind_ok]
  rw [← hlen, hj]
  rfl

/-! ### A corpus on which it panics -/

/-- The tokens `a`, `aa`, `b` and `c`. -/
def zeroLoss {F : Type} (a aa b c : F) : List (ScoredToken F) :=
  [⟨[97], a, true⟩, ⟨[97, 97], aa, false⟩, ⟨[98], b, true⟩, ⟨[99], c, true⟩]

/-- Once `aa`, three times `a` and five times `b`. -/
def zeroLossTexts : List Str :=
  [['a', 'a'], ['a'], ['a'], ['a'], ['b'], ['b'], ['b'], ['b'], ['b']]

theorem zeroLoss_get {F : Type} {a aa b c : F} {i : Nat} {t : ScoredToken F} (h : (zeroLoss a aa b c)[i]? = some t) :
    (i = 0 ∧ t.value = [97]) ∨ (i = 1 ∧ t.value = [97, 97]) ∨ (i = 2 ∧ t.value = [98]) ∨ (i = 3 ∧ t.value = [99]) := by
  match i, h with
  | 0, h => simp [zeroLoss] at h; simp [← h]
  | 1, h => simp [zeroLoss] at h; simp [← h]
  | 2, h => simp [zeroLoss] at h; simp [← h]
  | 3, h => simp [zeroLoss] at h; simp [← h]
  | _ + 4, h => simp [zeroLoss] at h

theorem zeroLoss_spells_nil {F : Type} {a aa b c : F} {ids : List Nat} (h : Spells (zeroLoss a aa b c) ids []) : ids = [] := by
  cases ids with
  | nil => rfl
  | cons i ids =>
    obtain ⟨t, r, ht, _, e⟩ := spells_cons.1 h
    rcases zeroLoss_get ht with ⟨_, e'⟩ | ⟨_, e'⟩ | ⟨_, e'⟩ | ⟨_, e'⟩ <;> rw [e'] at e <;> simp at e

theorem zeroLoss_spells_a {F : Type} {a aa b c : F} {ids : List Nat} (h : Spells (zeroLoss a aa b c) ids [97]) : ids = [0] := by
  cases ids with
  | nil => rw [spells_nil] at h; simp at h
  | cons i ids =>
    obtain ⟨t, r, ht, hr, e⟩ := spells_cons.1 h
    rcases zeroLoss_get ht with ⟨rfl, e'⟩ | ⟨rfl, e'⟩ | ⟨rfl, e'⟩ | ⟨rfl, e'⟩ <;> rw [e'] at e <;> simp at e
    subst e
    rw [zeroLoss_spells_nil hr]

theorem zeroLoss_spells_b {F : Type} {a aa b c : F} {ids : List Nat} (h : Spells (zeroLoss a aa b c) ids [98]) : ids = [2] := by
  cases ids with
  | nil => rw [spells_nil] at h; simp at h
  | cons i ids =>
    obtain ⟨t, r, ht, hr, e⟩ := spells_cons.1 h
    rcases zeroLoss_get ht with ⟨rfl, e'⟩ | ⟨rfl, e'⟩ | ⟨rfl, e'⟩ | ⟨rfl, e'⟩ <;> rw [e'] at e <;> simp at e
    subst e
    rw [zeroLoss_spells_nil hr]

theorem zeroLoss_spells_aa {F : Type} {a aa b c : F} {ids : List Nat} (h : Spells (zeroLoss a aa b c) ids [97, 97]) :
    ids = [1] ∨ ids = [0, 0] := by
  cases ids with
  | nil => rw [spells_nil] at h; simp at h
  | cons i ids =>
    obtain ⟨t, r, ht, hr, e⟩ := spells_cons.1 h
    rcases zeroLoss_get ht with ⟨rfl, e'⟩ | ⟨rfl, e'⟩ | ⟨rfl, e'⟩ | ⟨rfl, e'⟩ <;> rw [e'] at e <;> simp at e
    · subst e
      rw [zeroLoss_spells_a hr]
      exact .inr rfl
    · subst e
      rw [zeroLoss_spells_nil hr]
      exact .inl rfl

theorem zeroLoss_wf {F : Type} (a aa b c : F) : WellFormed (zeroLoss a aa b c) := by
  have hm : (zeroLoss a aa b c).map (·.value) = [[97], [97, 97], [98], [99]] := rfl
  have hv : ∀ t ∈ zeroLoss a aa b c, t.value ∈ [[97], [97, 97], [98], [99]] := fun t ht => hm ▸ List.mem_map_of_mem ht
  refine ⟨by unfold NoDuplicates; rw [hm]; decide, fun t ht h => ?_, fun t ht x hx => ?_⟩
  · have := hv t ht
    rw [h] at this
    exact absurd this (by decide)
  · have hall : ∀ v ∈ [[97], [97, 97], [98], [99]], ∀ x ∈ v, x = (97 : UInt8) ∨ x = 98 ∨ x = 99 := by decide
    rcases hall _ (hv t ht) x hx with rfl | rfl | rfl
    · exact ⟨⟨[97], a, true⟩, by simp [zeroLoss], rfl⟩
    · exact ⟨⟨[98], b, true⟩, by simp [zeroLoss], rfl⟩
    · exact ⟨⟨[99], c, true⟩, by simp [zeroLoss], rfl⟩

/-- What the texts are encoded to. -/
def zeroLossIds : List (List Nat) := [[1], [0], [0], [0], [2], [2], [2], [2], [2]]

theorem zeroLoss_encode {a aa b c : ℝ} (h : a + a < aa) (rnd : Nat → ℝ) :
    zeroLossTexts.mapM (fun s => (Model.from_ (zeroLoss a aa b c)).encode s 0 rnd) = .ok zeroLossIds := by
  have hwf := zeroLoss_wf a aa b c
  have hex : ∀ s : Str, (∀ x ∈ enc s, x = 97 ∨ x = 98) → ∃ ids, (Model.from_ (zeroLoss a aa b c)).encode s 0 rnd = .ok ids ∧
      Spells (zeroLoss a aa b c) ids (enc s) := by
    intro s hs
    obtain ⟨ids, h⟩ := C04_dropout_total (zeroLoss a aa b c) s 0 rnd (fun x hx => by
      rcases hs x hx with rfl | rfl
      · exact ⟨⟨[97], a, true⟩, by simp [zeroLoss], rfl⟩
      · exact ⟨⟨[98], b, true⟩, by simp [zeroLoss], rfl⟩)
    exact ⟨ids, h, (C01_encode_lossless _ _ _ _ _ h).2⟩
  have e1 : enc ['a', 'a'] = [97, 97] := by decide
  have e2 : enc ['a'] = [97] := by decide
  have e3 : enc ['b'] = [98] := by decide
  have h2 : (Model.from_ (zeroLoss a aa b c)).encode ['a'] 0 rnd = .ok [0] := by
    obtain ⟨ids, h, hs⟩ := hex ['a'] (by rw [e2]; simp)
    rw [e2] at hs
    rw [h, zeroLoss_spells_a hs]
  have h3 : (Model.from_ (zeroLoss a aa b c)).encode ['b'] 0 rnd = .ok [2] := by
    obtain ⟨ids, h, hs⟩ := hex ['b'] (by rw [e3]; simp)
    rw [e3] at hs
    rw [h, zeroLoss_spells_b hs]
  have h1 : (Model.from_ (zeroLoss a aa b c)).encode ['a', 'a'] 0 rnd = .ok [1] := by
    obtain ⟨ids, h', hs⟩ := hex ['a', 'a'] (by rw [e1]; simp)
    rw [e1] at hs
    rcases zeroLoss_spells_aa hs with rfl | rfl
    · exact h'
    · exfalso
      have := C05_encode_optimal_nodup _ _ (exact_laws realExact) (zeroLoss a aa b c) (fun _ _ => trivial) hwf.nodup hwf.nonempty
        ['a', 'a'] 0 rnd (by simp [ScoreOps.le, ScoreOps.zero]) [0, 0] h' [1]
        (by rw [e1]; exact spells_one (t := ⟨[97, 97], aa, false⟩) rfl)
      rw [exact_lt_false realExact, exact_total, exact_total] at this
      simp [zeroLoss, scoreOf, realExact] at this
      linarith
  simp only [zeroLossTexts, List.mapM_cons, List.mapM_nil, h1, h2, h3, res_bind_ok, res_pure, zeroLossIds]

/-- **C104** is false: with exact arithmetic, the tokens `a`, `aa`, `b` and `c`, of which `aa` is worth more than `a` twice, and a
corpus of nine texts that can be encoded, every prune step panics. -/
theorem C104_false (c : Pruner ℝ) (std : Pruner.Std ℝ) (ok : List (Hypo ℝ) → Prop)
    (hheap : HeapLaws std.heap ok) (hmax : HeapMax std.heap ok) (sa saa sb sc : ℝ) (h : sa + sa < saa) :
    WellFormed (zeroLoss sa saa sb sc) ∧
    (∃ idss, zeroLossTexts.mapM (fun s => (Model.from_ (zeroLoss sa saa sb sc)).encode s 0 (fun _ => 0)) = .ok idss) ∧
    ∀ rnd freqs, Pruner.Frequencies (Model.from_ (zeroLoss sa saa sb sc)) rnd zeroLossTexts freqs →
      ∃ fuel₀, ∀ fuel ≥ fuel₀,
        Pruner.pruneVocab c std (Model.from_ (zeroLoss sa saa sb sc)) rnd zeroLossTexts.length freqs fuel = .error .panic := by
  have hwf := zeroLoss_wf sa saa sb sc
  refine ⟨hwf, ⟨_, zeroLoss_encode h _⟩, ?_⟩
  intro rnd freqs hfr
  have htot : ∀ alt, Resegments (zeroLoss sa saa sb sc) [97, 97] alt → alt = [0, 0] := by
    intro alt ha
    rcases zeroLoss_spells_aa ha.2.1 with rfl | rfl
    · have := ha.1; simp at this
    · rfl
  refine C104_panics c std ok hheap hmax zeroLossTexts (zeroLoss sa saa sb sc) (by simp [zeroLoss]) hwf zeroLossIds (zeroLoss_encode h _)
    1 ⟨[97, 97], saa, false⟩ rfl rfl (by decide) ⟨⟨[0, 0], by simp, ?_, ?_⟩, ?_⟩ ?_ rnd freqs hfr
  · exact spells_two (t := ⟨[97], sa, true⟩) (u := ⟨[97], sa, true⟩) rfl rfl
  · exact canonical_of_nodup hwf.nodup hwf.nonempty (spells_two (t := ⟨[97], sa, true⟩) (u := ⟨[97], sa, true⟩) rfl rfl)
  · intro alt ha
    rw [htot alt ha]
    by_contra hn
    have hn : lt (totalScore (zeroLoss sa saa sb sc) [0, 0]) saa = false := by simpa using hn
    rw [exact_lt_false realExact, exact_total] at hn
    simp [zeroLoss, scoreOf, realExact] at hn
    linarith
  · intro alt ha
    rw [htot alt ha.1]
    have h0 : tokenCount zeroLossIds 0 = 3 := by decide
    have h1 : tokenCount zeroLossIds 1 = 1 := by decide
    have h2 : tokenCount zeroLossIds 2 = 5 := by decide
    have h3 : tokenCount zeroLossIds 3 = 0 := by decide
    have hlen : (zeroLoss sa saa sb sc).length = 4 := rfl
    have l4 : Real.log 12 = Real.log 3 + Real.log 4 := by rw [← Real.log_mul (by norm_num) (by norm_num)]; norm_num
    have l9 : Real.log 9 = Real.log 3 + Real.log 3 := by rw [← Real.log_mul (by norm_num) (by norm_num)]; norm_num
    unfold pruneLoss
    rw [hlen]
    simp only [List.range, List.range.loop, List.map_cons, List.map_nil, List.sum_cons, List.sum_nil, h0, h1, h2, h3]
    norm_num
    rw [l4, l9]
    ring_nf
    simp

/-- **C104** (prune) So `prune` without EM iterations, asked for fewer than four tokens, does not return from this vocabulary and
corpus. -/
theorem C104_prune_false (c : Pruner ℝ) (hem : c.emSubiters = 0) (hsize : c.vocabSize < 4) (std : Pruner.Std ℝ)
    (ok : List (Hypo ℝ) → Prop) (hheap : HeapLaws std.heap ok) (hmax : HeapMax std.heap ok) (sa saa sb sc : ℝ) (h : sa + sa < saa)
    (m : Model ℝ) : ¬ Pruner.Returns c std zeroLossTexts (Model.from_ (zeroLoss sa saa sb sc)) m := by
  rintro ⟨h1, h2⟩
  rcases ReflTransGen.cases_head h1 with rfl | ⟨m', ⟨_, m₁, he, rnd, freqs, v, fuel₀, hf, hv, _⟩, _⟩
  · exact h2 (by rw [Model.vocabSize, Model.from_vocab]; exact hsize)
  · rw [hem] at he
    cases he
    obtain ⟨fuel₁, hp⟩ := (C104_false c std ok hheap hmax sa saa sb sc h).2.2 rnd freqs hf
    have h1 := hv (max fuel₀ fuel₁) (by omega)
    rw [hp (max fuel₀ fuel₁) (by omega)] at h1
    simp at h1

/-- The hypotheses are met: there is such a queue, and a prune step gets as far as the frequencies. -/
example : ∃ freqs, Pruner.Frequencies (Model.from_ (zeroLoss (-1 : ℝ) (-1) (-1) (-1))) (fun _ => 0) zeroLossTexts freqs ∧
    ∃ fuel₀, ∀ fuel ≥ fuel₀, Pruner.pruneVocab realPruner (listStd ℝ) (Model.from_ (zeroLoss (-1 : ℝ) (-1) (-1) (-1))) (fun _ => 0)
      zeroLossTexts.length freqs fuel = .error .panic := by
  have hf : ∃ freqs, Pruner.Frequencies (Model.from_ (zeroLoss (-1 : ℝ) (-1) (-1) (-1))) (fun _ => 0) zeroLossTexts freqs := by
    refine Pruner.frequencies_exist _ _ _ (fun s hs => C04_dropout_total _ s _ _ (fun x hx => ?_))
    have hall : ∀ s ∈ zeroLossTexts, ∀ x ∈ enc s, x = 97 ∨ x = 98 := by decide
    rcases hall s hs x hx with rfl | rfl
    · exact ⟨⟨[97], -1, true⟩, by simp [zeroLoss], rfl⟩
    · exact ⟨⟨[98], -1, true⟩, by simp [zeroLoss], rfl⟩
  obtain ⟨freqs, hf⟩ := hf
  exact ⟨freqs, hf, (C104_false realPruner (listStd ℝ) _ listHeap_laws (listHeap_max realExact) (-1) (-1) (-1) (-1) (by norm_num)).2.2
    _ freqs hf⟩

end Tokengeex

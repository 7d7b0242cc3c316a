import Verif.Proofs.ReturnsF64
import Verif.Props.PruneLossF64
/-
C49 with doubles: pruning returns.
-/
namespace Tokengeex
open Spec ScoreOps RealOps Relation

variable [Elementary]

open Classical in
/-- **C49** (doubles, partial) If `exp` and `ln` are computed up to 2⁻⁴⁰, then from a vocabulary and corpus fit for doubles, in which
no two tokens are equal, none is empty and every byte of a token is a protected token, pruning with doubles and its actual agenda
returns with at most `vocab_size` tokens, after at most `vocab.length - vocab_size` passes, and no pass panics, whatever the number
of threads, the schedule and the random numbers, if for every vocabulary that is still too large: the shrink factor really
shrinks it; it has no more forced tokens (protected, or not better than some other way of cutting them) than the prune step may
keep; no byte ends tokens of more than 9/10 of the probability before an EM iteration; and no loss is close to 0.

Missing: without the first two the claim is false (`C49_false_doubles`), and without the last a prune step may panic
(`C104_false_doubles`). -/
theorem C49_doubles_partial {ε η : ℝ} (hln : LnWithin ε) (hexp : ExpWithin η) (hε : ε ≤ (1 / 2) ^ 40) (hη : η ≤ (1 / 2) ^ 40)
    (c : Pruner F64) (std : Pruner.Std F64) (hstd : StdLaws std) (hheap : std.heap = agendaHeap F64) (samples : List Str)
    (vocab : List (ScoredToken F64)) (hfit : FitForDoubles vocab samples) (hnd : NoDuplicates vocab)
    (hne : ∀ t ∈ vocab, t.value ≠ []) (hbytes : ∀ t ∈ vocab, BytesKept vocab t.value)
    (hshrink : ∀ n, c.vocabSize < n → n ≤ vocab.length → c.shrink n < n)
    (hforced : ∀ m w, ReflTransGen (Pruner.Pass c std samples) (Model.from_ vocab) m → c.vocabSize < m.vocabSize →
      Pruner.EMSteps c samples c.emSubiters m (Model.from_ w) →
      w.countP (fun t => decide (Forced w t)) ≤ max (c.shrink w.length) c.vocabSize)
    (hspread : ∀ m w k, ReflTransGen (Pruner.Pass c std samples) (Model.from_ vocab) m → c.vocabSize < m.vocabSize →
      k < c.emSubiters → Pruner.EMSteps c samples k m (Model.from_ w) → Spread w)
    (hclear : ∀ m w idss, ReflTransGen (Pruner.Pass c std samples) (Model.from_ vocab) m → c.vocabSize < m.vocabSize →
      Pruner.EMSteps c samples c.emSubiters m (Model.from_ w) →
      samples.mapM (fun s => (Model.from_ w).encode s (.num false 0) (fun _ => .num false 0)) = .ok idss →
      ClearLosses samples.length w (tokenCount idss)) :
    (∃ m', Pruner.Returns c std samples (Model.from_ vocab) m') ∧
    (∀ m', Pruner.Returns c std samples (Model.from_ vocab) m' → m'.vocabSize ≤ c.vocabSize) ∧
    (∀ n m', PassesOf (Pruner.Pass c std samples) n (Model.from_ vocab) m' → n ≤ vocab.length - c.vocabSize) ∧
    ∀ m, ReflTransGen (Pruner.Pass c std samples) (Model.from_ vocab) m → c.vocabSize < m.vocabSize →
      ∃ m', Pruner.Pass c std samples m m' := by
  have hwf : ∀ w, PrunedTo vocab w → WellFormed w := by
    intro w hw
    refine ⟨prunedTo_noDuplicates hw hnd, ?_, ?_⟩
    · intro u hu
      obtain ⟨t, h1, h2, _⟩ := prunedTo_value hw hu
      rw [← h2]
      exact hne t h1
    · intro u hu b hb
      obtain ⟨t, h1, h2, _⟩ := prunedTo_value hw hu
      rw [← h2] at hb
      obtain ⟨x, hx, e, _⟩ := prunedTo_bytesKept hw (hbytes t h1) b hb
      exact ⟨x, hx, e⟩
  -- every pass makes the vocabulary smaller
  have hdec : ∀ m m', ReflTransGen (Pruner.Pass c std samples) (Model.from_ vocab) m → Pruner.Pass c std samples m m' →
      c.vocabSize < m.vocabSize ∧ m'.vocabSize < m.vocabSize := by
    intro m m' hr hp
    obtain ⟨v, rfl, hv1, hv2⟩ := Pruner.run_fit hln hexp hε hη hstd hfit hr
    obtain ⟨h1, m₁, h2, h3⟩ := hp
    obtain ⟨w, rfl, h4, h5⟩ := Pruner.emSteps_fit hln hexp hε hη h2 v rfl hv2
    have hl2 := prunedTo_length h4
    have hl1 := prunedTo_length hv1
    have hs := h5.size
    have hle := Pruner.pruneStep_size hstd hheap (by omega) (hwf w (prunedTo_trans hv1 h4)) h5.scores h5.lengths (hforced _ w hr h1 h2) h3
    refine ⟨h1, ?_⟩
    have hvs : ∀ x : List (ScoredToken F64), (Model.from_ x).vocabSize = x.length := fun x => by
      rw [Model.vocabSize, Model.from_vocab]
    rw [hvs] at h1 ⊢
    by_cases hbig : c.vocabSize < w.length
    · have := hshrink w.length hbig (by omega)
      omega
    · obtain ⟨w', ids, rfl, k1, k2, _⟩ := C48_prune_step c std hstd samples w (by omega) _ h3
      have : w'.length ≤ w.length := by
        rw [← entriesAt_length k2]
        exact nodup_length_le k1 (fun i hi => entriesAt_lt k2 hi)
      rw [hvs]
      omega
  have hcount : ∀ n m', PassesOf (Pruner.Pass c std samples) n (Model.from_ vocab) m' → n ≤ vocab.length - c.vocabSize := by
    have count : ∀ n m m', PassesOf (Pruner.Pass c std samples) n m m' → m = Model.from_ vocab →
        n + m'.vocabSize ≤ vocab.length ∧ (0 < n → n ≤ vocab.length - c.vocabSize) := by
      intro n m m' h
      induction h with
      | zero =>
        intro e
        rw [e, Model.vocabSize, Model.from_vocab]
        omega
      | @succ n m m₁ m₂ h1 h2 ih =>
        intro e
        have h3 := h1.reach
        rw [e] at h3
        have := hdec _ _ h3 h2
        have := ih e
        omega
    intro n m' h
    have := count n _ m' h rfl
    omega
  have hprog : ∀ m, ReflTransGen (Pruner.Pass c std samples) (Model.from_ vocab) m → c.vocabSize < m.vocabSize →
      ∃ m', Pruner.Pass c std samples m m' := by
    intro m hr hlarge
    obtain ⟨v, rfl, hv1, hv2⟩ := Pruner.run_fit hln hexp hε hη hstd hfit hr
    have hem : ∀ k, k ≤ c.emSubiters → ∃ m', Pruner.EMSteps c samples k (Model.from_ v) m' := by
      intro k
      induction k with
      | zero => intro _; exact ⟨_, .zero _⟩
      | succ k ih =>
        intro hk
        obtain ⟨m₁, h1⟩ := ih (by omega)
        obtain ⟨w, rfl, _, _, _, h2⟩ := C78_em_doubles hln hexp hε hη c samples v hv2 k m₁ h1
        obtain ⟨_, m₂, h3⟩ := h2 (hspread _ w k hr hlarge (by omega) h1)
        exact ⟨m₂, Pruner.emSteps_snoc h1 h3⟩
    obtain ⟨m₁, h1⟩ := hem c.emSubiters (Nat.le_refl _)
    obtain ⟨w, rfl, hw1, hw⟩ := Pruner.emSteps_fit hln hexp hε hη h1 v rfl hv2
    have hcov : ∀ s ∈ samples, BytesCovered w (enc s) := by
      intro s hs b hb
      obtain ⟨t, ht, e, _⟩ := hw.covered s hs b hb
      exact ⟨t, ht, e⟩
    have hm : ∀ l : List Str, (∀ s ∈ l, s ∈ samples) →
        ∃ idss, l.mapM (fun s => (Model.from_ w).encode s (.num false 0) (fun _ => .num false 0)) = .ok idss := by
      intro l
      induction l with
      | nil => intro _; exact ⟨[], rfl⟩
      | cons s l ih =>
        intro hs
        obtain ⟨ids, h1⟩ := C04_dropout_total w s (.num false 0) (fun _ => .num false 0) (hcov s (hs s (List.mem_cons_self ..)))
        obtain ⟨idss, h2⟩ := ih (fun x hx => hs x (List.mem_cons_of_mem _ hx))
        refine ⟨ids :: idss, ?_⟩
        rw [List.mapM_cons, h1]
        simp only [res_bind_ok]
        rw [h2]
        rfl
    obtain ⟨idss, hids⟩ := hm samples (fun _ h => h)
    obtain ⟨freqs, hf⟩ := Pruner.frequencies_exist w (fun _ => F64.nan) samples (fun s hs => C04_dropout_total _ s _ _ (hcov s hs))
    have hs := hw.size
    obtain ⟨w', fuel₀, hw'⟩ := C104_doubles_partial hln hε c std hstd samples w (by omega)
      (fun t ht => F64.Finite.ne_nan (hw.scores t ht).1) idss hids (hclear _ w idss hr hlarge h1 hids) (fun _ => F64.nan) freqs hf
    exact ⟨_, hlarge, _, h1, _, freqs, w', fuel₀, hf, hw', rfl⟩
  refine ⟨?_, fun m' h => Nat.le_of_not_lt h.2, hcount, hprog⟩
  -- a longest run has returned
  by_contra hno
  have long : ∀ n, ∃ m', PassesOf (Pruner.Pass c std samples) n (Model.from_ vocab) m' := by
    intro n
    induction n with
    | zero => exact ⟨_, .zero _⟩
    | succ n ih =>
      obtain ⟨m, hm⟩ := ih
      have hlarge : c.vocabSize < m.vocabSize := by
        by_contra hsmall
        exact hno ⟨m, hm.reach, hsmall⟩
      obtain ⟨m', hp⟩ := hprog m hm.reach hlarge
      exact ⟨m', .succ hm hp⟩
  obtain ⟨m', hm⟩ := long (vocab.length - c.vocabSize + 1)
  have := hcount _ _ hm
  omega

/-! ### Non-vacuity -/

omit [Elementary] in
/-- `aa` can only be cut into `a` and `a`. -/
theorem clear_alternative {alt : List Nat} (hre : Resegments clearVocab [97, 97] alt) : alt = [0, 0] := by
  obtain ⟨l1, l2⟩ := resegments_length hre
  obtain ⟨l3, ⟨toks, e1, e2⟩, _⟩ := hre
  simp only [List.length_cons, List.length_nil] at l1
  obtain ⟨x, y, rfl⟩ := List.length_eq_two.1 (show alt.length = 2 by omega)
  have hx := l2 x (by simp)
  have hy := l2 y (by simp)
  simp only [clearVocab, List.length_cons, List.length_nil] at hx hy
  have hx' : x = 0 ∨ x = 1 := by omega
  have hy' : y = 0 ∨ y = 1 := by omega
  match toks, e1 with
  | [t1, t2], e1 =>
    simp only [List.map_cons, List.map_nil, List.cons.injEq, and_true] at e1
    have e3 := congrArg List.length e2
    simp only [List.map_cons, List.map_nil, List.flatten_cons, List.flatten_nil, List.length_append, List.length_nil, List.length_cons] at e3
    rcases hx' with rfl | rfl <;> rcases hy' with rfl | rfl <;>
      simp only [clearVocab, List.getElem?_cons_succ, List.getElem?_cons_zero, Option.some.injEq] at e1 <;>
      obtain ⟨rfl, rfl⟩ := e1 <;> simp at e3 ⊢
  | [], e1 => simp at e1
  | [_], e1 => simp at e1
  | _ :: _ :: _ :: _, e1 => simp at e1

omit [Elementary] in
theorem clear_nodup : NoDuplicates clearVocab := by unfold NoDuplicates clearVocab; decide

omit [Elementary] in
theorem clear_nonempty : ∀ t ∈ clearVocab, t.value ≠ [] := by
  intro t ht
  simp only [clearVocab, List.mem_cons, List.not_mem_nil, or_false] at ht
  rcases ht with rfl | rfl <;> simp

omit [Elementary] in
theorem clear_replaceable : Replaceable clearVocab ⟨[97, 97], .num true (2 ^ 1074), false⟩ := by
  have hs : Spells clearVocab [0, 0] [97, 97] := ⟨[⟨[97], .num true (2 ^ 1074), true⟩, ⟨[97], .num true (2 ^ 1074), true⟩], rfl, rfl⟩
  refine ⟨⟨[0, 0], by decide, hs, canonical_of_nodup clear_nodup clear_nonempty hs⟩, ?_⟩
  intro alt hre
  rw [clear_alternative hre]
  decide +kernel

omit [Elementary] in
theorem clear_fit : FitForDoubles clearVocab [['a', 'a']] := by
  have h1 : real (F64.num true (2 ^ 1074)) = -1 := by
    rw [real, if_pos rfl, Nat.cast_pow, Nat.cast_ofNat, neg_mul, ← mul_pow]
    norm_num
  have h2 : IsDouble (2 ^ 1074) := ⟨1, 1074, by decide, by omega, by rw [Nat.one_mul]⟩
  refine ⟨by decide, ?_, ?_, ?_, by norm_num, by decide⟩
  · intro t ht
    have : t.score = .num true (2 ^ 1074) := by
      simp only [clearVocab, List.mem_cons, List.not_mem_nil, or_false] at ht
      rcases ht with rfl | rfl <;> rfl
    rw [this, h1]
    exact ⟨h2, by norm_num⟩
  · intro t ht
    simp only [clearVocab, List.mem_cons, List.not_mem_nil, or_false] at ht
    rcases ht with rfl | rfl <;> simp
  · intro s hs b hb
    rw [List.mem_singleton.1 hs] at hb
    have hall : ∀ x ∈ enc ['a', 'a'], x = 97 := by decide
    rw [hall b hb]
    exact ⟨⟨[97], .num true (2 ^ 1074), true⟩, by simp [clearVocab], rfl, rfl⟩

/-- The hypotheses of C49_doubles_partial are met: `exp` and `ln` that err by at most 2⁻⁴² exist, and with them pruning `a` and
`aa` to one token with the sample `"aa"` returns. -/
example : ∃ E : Elementary, ∃ m', @Pruner.Returns F64 (@F64.instTrainOpsOfElementary E) ⟨1, fun n => n / 2, 0, .num false 0⟩
    ⟨agendaHeap F64, insertSorter _, insertSorter _⟩ [['a', 'a']] (Model.from_ clearVocab) m' ∧ m'.vocabSize ≤ 1 := by
  classical
  obtain ⟨E, hE, _, hX⟩ := elementary_exists
  have hstd : @StdLaws F64 _ ⟨agendaHeap F64, insertSorter _, insertSorter _⟩ :=
    ⟨⟨_, agenda_laws⟩, insertSorter_laws _, insertSorter_laws _⟩
  have hε : ((1 : ℝ) / 2) ^ 42 ≤ (1 / 2) ^ 40 := by norm_num
  have hnd := clear_nodup
  have hne := clear_nonempty
  have hby : ∀ t ∈ clearVocab, BytesKept clearVocab t.value := by
    intro t ht b hb
    have : b = 97 := by
      simp only [clearVocab, List.mem_cons, List.not_mem_nil, or_false] at ht
      rcases ht with rfl | rfl <;> simpa using hb
    rw [this]
    exact ⟨⟨[97], .num true (2 ^ 1074), true⟩, by simp [clearVocab], rfl, rfl⟩
  have hcount : clearVocab.countP (fun t => decide (Forced clearVocab t)) ≤ 1 := by
    have h2 : ¬ Forced clearVocab ⟨[97, 97], .num true (2 ^ 1074), false⟩ := by
      rintro (h | h)
      · exact absurd h (by simp)
      · exact h clear_replaceable
    have e : clearVocab = [⟨[97], .num true (2 ^ 1074), true⟩] ++ [⟨[97, 97], .num true (2 ^ 1074), false⟩] := rfl
    rw [e, List.countP_append, ← e, List.countP_singleton, List.countP_singleton]
    simp only [h2, decide_false]
    split <;> simp
  let c : Pruner F64 := ⟨1, fun n => n / 2, 0, .num false 0⟩
  have hwf : WellFormed clearVocab := ⟨hnd, hne, fun t ht b hb => by
    obtain ⟨x, hx, e, _⟩ := hby t ht b hb
    exact ⟨x, hx, e⟩⟩
  have hinj : ∀ v w : List (ScoredToken F64), Model.from_ v = Model.from_ w → v = w := by
    intro v w e
    have := congrArg Model.vocab e
    rwa [Model.from_vocab, Model.from_vocab] at this
  -- a vocabulary that is still too large is the first
  have honly : ∀ m, ReflTransGen (Pruner.Pass c ⟨agendaHeap F64, insertSorter _, insertSorter _⟩ [['a', 'a']]) (Model.from_ clearVocab) m →
      c.vocabSize < m.vocabSize → m = Model.from_ clearVocab := by
    intro m hr
    induction hr with
    | refl => intro _; rfl
    | tail _ h2 ih =>
      intro hlarge
      obtain ⟨k1, m₁, k2, k3⟩ := h2
      have e := ih k1
      subst e
      cases k2
      have := Pruner.pruneStep_size hstd rfl (by decide) hwf clear_fit.scores clear_fit.lengths (by
        refine hcount.trans ?_
        exact Nat.le_max_right _ _) k3
      have h3 : max (c.shrink clearVocab.length) c.vocabSize = 1 := by decide
      have h4 : c.vocabSize = 1 := rfl
      omega
  have hemzero : ∀ m w, Pruner.EMSteps c [['a', 'a']] 0 m (Model.from_ w) → m = Model.from_ w := by
    intro m w h
    cases h
    rfl
  obtain ⟨⟨m', h1⟩, h2, _⟩ := C49_doubles_partial hE hX hε hε c _ hstd rfl [['a', 'a']] clearVocab clear_fit hnd hne hby
    (by intro n h _; show n / 2 < n; omega)
    (by
      intro m w hr hlarge hem
      have e := hinj _ _ ((honly m hr hlarge).symm.trans (hemzero m w hem))
      subst e
      exact hcount.trans (Nat.le_max_right _ _))
    (by intro m w k _ _ hk; exact absurd hk (Nat.not_lt_zero _))
    (by
      intro m w idss hr hlarge hem hids
      have e := hinj _ _ ((honly m hr hlarge).symm.trans (hemzero m w hem))
      subst e
      have h3 := clear_encode.symm.trans hids
      injection h3 with h3
      rw [← h3]
      exact clear_losses)
  exact ⟨E, m', h1, h2 m' h1⟩

end Tokengeex

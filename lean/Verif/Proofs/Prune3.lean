import Verif.Proofs.Prune2
/-
Pruning: consequences for protected tokens, for encodability and for the size.
-/
namespace Tokengeex
open Spec ScoreOps RealOps

section lists
variable {F : Type}

theorem entriesAt_length {vocab w : List (ScoredToken F)} {ids : List Nat} (h : EntriesAt vocab ids w) : ids.length = w.length := by
  have := congrArg List.length h
  simpa using this

theorem entriesAt_get {vocab w : List (ScoredToken F)} {ids : List Nat} (h : EntriesAt vocab ids w) {k i : Nat}
    (hk : ids[k]? = some i) : vocab[i]? = w[k]? := by
  have h1 := congrArg (fun l => l[k]?) h
  simp only [List.getElem?_map, hk, Option.map_some] at h1
  have hlt : k < w.length := by
    rw [← entriesAt_length h]
    exact (List.getElem?_eq_some_iff.1 hk).1
  rw [List.getElem?_eq_getElem hlt] at h1 ⊢
  simpa using h1

theorem entriesAt_mem {vocab w : List (ScoredToken F)} {ids : List Nat} (h : EntriesAt vocab ids w) {i : Nat} (hi : i ∈ ids)
    {t : ScoredToken F} (ht : vocab[i]? = some t) : t ∈ w := by
  obtain ⟨k, hk⟩ := List.mem_iff_getElem?.1 hi
  rw [entriesAt_get h hk] at ht
  exact List.mem_of_getElem? ht

theorem entriesAt_sub {vocab w : List (ScoredToken F)} {ids : List Nat} (h : EntriesAt vocab ids w) {t : ScoredToken F}
    (ht : t ∈ w) : t ∈ vocab := by
  have : some t ∈ w.map some := List.mem_map_of_mem ht
  rw [← h] at this
  obtain ⟨i, _, hi⟩ := List.mem_map.1 this
  exact List.mem_of_getElem? hi

theorem entriesAt_lt {vocab w : List (ScoredToken F)} {ids : List Nat} (h : EntriesAt vocab ids w) {i : Nat} (hi : i ∈ ids) :
    i < vocab.length := by
  obtain ⟨k, hk⟩ := List.mem_iff_getElem?.1 hi
  have hlt : k < w.length := by
    rw [← entriesAt_length h]
    exact (List.getElem?_eq_some_iff.1 hk).1
  have := entriesAt_get h hk
  rw [List.getElem?_eq_getElem hlt] at this
  exact (List.getElem?_eq_some_iff.1 this).1

theorem nodup_length_le {ids : List Nat} {n : Nat} (h : ids.Nodup) (hlt : ∀ i ∈ ids, i < n) : ids.length ≤ n := by
  have := (List.subperm_of_subset h (l₂ := List.range n) (fun i hi => List.mem_range.2 (hlt i hi))).length_le
  simpa using this

theorem prunedTo_refl (vocab : List (ScoredToken F)) : PrunedTo vocab vocab := by
  refine ⟨List.range vocab.length, vocab, List.nodup_range, ?_, ?_, ?_⟩
  · unfold EntriesAt
    apply List.ext_getElem?
    intro i
    simp only [List.getElem?_map]
    by_cases h : i < vocab.length
    · simp [h]
    · simp [h]
  · exact List.forall₂_same.2 (fun _ _ => ⟨rfl, rfl⟩)
  · intro i t h _
    exact List.mem_range.2 (List.getElem?_eq_some_iff.1 h).1

/-- Entries at different positions. -/
theorem prunedTo_of {vocab w : List (ScoredToken F)} {ids : List Nat} (h1 : ids.Nodup) (h2 : EntriesAt vocab ids w)
    (h3 : ∀ i t, vocab[i]? = some t → t.keep = true → i ∈ ids) : PrunedTo vocab w :=
  ⟨ids, w, h1, h2, List.forall₂_same.2 (fun _ _ => ⟨rfl, rfl⟩), h3⟩

theorem forall₂_get {α β : Type} {R : α → β → Prop} {l : List α} {m : List β} (h : List.Forall₂ R l m) {k : Nat} {a : α}
    {b : β} (ha : l[k]? = some a) (hb : m[k]? = some b) : R a b := by
  obtain ⟨h1, rfl⟩ := List.getElem?_eq_some_iff.1 ha
  obtain ⟨h2, rfl⟩ := List.getElem?_eq_some_iff.1 hb
  exact (List.forall₂_iff_get.1 h).2 k h1 h2

theorem prunedTo_trans {a b c : List (ScoredToken F)} (h : PrunedTo a b) (h' : PrunedTo b c) : PrunedTo a c := by
  obtain ⟨ids, old, n1, e1, f1, k1⟩ := h
  obtain ⟨ids', old', n2, e2, f2, k2⟩ := h'
  have l1 := entriesAt_length e1
  have l2 := f1.length_eq
  have hlt : ∀ j ∈ ids', j < ids.length := by
    intro j hj
    have := entriesAt_lt e2 hj
    omega
  have hltd : ∀ j ∈ ids', ids.getD j 0 = ids[j]?.getD 0 := by
    intro j _; rw [List.getD_eq_getElem?_getD]
  have hget : ∀ j ∈ ids', ids[j]? = some (ids.getD j 0) := by
    intro j hj
    rw [List.getD_eq_getElem?_getD, List.getElem?_eq_getElem (hlt j hj)]
    rfl
  -- the entries of `a`
  have hex : ∃ old'', EntriesAt a (ids'.map fun j => ids.getD j 0) old'' ∧ List.Forall₂ Rescored old'' old' := by
    clear n2 k2 f2
    induction ids' generalizing old' with
    | nil =>
      have : old' = [] := by
        unfold EntriesAt at e2
        simpa using e2.symm
      subst this
      exact ⟨[], rfl, .nil⟩
    | cons j ids' ih =>
      cases old' with
      | nil => simp [EntriesAt] at e2
      | cons u old' =>
        unfold EntriesAt at e2
        simp only [List.map_cons, List.cons.injEq] at e2
        obtain ⟨o, q1, q2⟩ := ih old' e2.2 (fun x hx => hlt x (List.mem_cons_of_mem _ hx))
          (fun x hx => hltd x (List.mem_cons_of_mem _ hx)) (fun x hx => hget x (List.mem_cons_of_mem _ hx))
        have hj := hget j (List.mem_cons_self ..)
        have h3 := entriesAt_get e1 hj
        have hjl : j < old.length := by have := hlt j (List.mem_cons_self ..); omega
        rw [List.getElem?_eq_getElem hjl] at h3
        refine ⟨old[j] :: o, ?_, .cons (forall₂_get f1 (List.getElem?_eq_getElem hjl) e2.1) q2⟩
        unfold EntriesAt at q1 ⊢
        simp only [List.map_cons, q1, h3]
  obtain ⟨old'', q1, q2⟩ := hex
  refine ⟨_, old'', ?_, q1, ?_, ?_⟩
  · unfold List.Nodup
    rw [List.pairwise_map]
    refine List.Pairwise.imp_of_mem ?_ n2
    intro x y hx hy hxy e
    apply hxy
    have h1 := hget x hx
    have h2 := hget y hy
    rw [e] at h1
    obtain ⟨p1, p2⟩ := List.getElem?_eq_some_iff.1 h1
    obtain ⟨p3, p4⟩ := List.getElem?_eq_some_iff.1 h2
    exact (List.Nodup.getElem_inj_iff n1).1 (p2.trans p4.symm)
  · refine List.forall₂_iff_get.2 ⟨q2.length_eq.trans f2.length_eq, ?_⟩
    intro i h1 h2
    have h3 : i < old'.length := by rw [f2.length_eq]; exact h2
    have r1 := forall₂_get q2 (List.getElem?_eq_getElem h1) (List.getElem?_eq_getElem h3)
    have r2 := forall₂_get f2 (List.getElem?_eq_getElem h3) (List.getElem?_eq_getElem h2)
    exact ⟨r2.1.trans r1.1, r2.2.trans r1.2⟩
  · intro i t hi hk
    have hin := k1 i t hi hk
    obtain ⟨j, hj⟩ := List.mem_iff_getElem?.1 hin
    have hjl := (List.getElem?_eq_some_iff.1 hj).1
    have h3 := entriesAt_get e1 hj
    rw [hi] at h3
    have hb : j < b.length := by omega
    have := forall₂_get f1 h3.symm (List.getElem?_eq_getElem hb)
    have hjin := k2 j b[j] (List.getElem?_eq_getElem hb) (by rw [this.2]; exact hk)
    refine List.mem_map.2 ⟨j, hjin, ?_⟩
    rw [List.getD_eq_getElem?_getD, hj]; rfl

theorem prunedTo_length {a b : List (ScoredToken F)} (h : PrunedTo a b) : b.length ≤ a.length := by
  obtain ⟨ids, old, n1, e1, f1, _⟩ := h
  rw [← f1.length_eq, ← entriesAt_length e1]
  exact nodup_length_le n1 (fun i hi => entriesAt_lt e1 hi)

theorem prunedTo_keep {a b : List (ScoredToken F)} (h : PrunedTo a b) {t : ScoredToken F} (ht : t ∈ a) (hk : t.keep = true) :
    ∃ u ∈ b, u.value = t.value ∧ u.keep = true := by
  obtain ⟨ids, old, n1, e1, f1, k1⟩ := h
  obtain ⟨i, hi⟩ := List.mem_iff_getElem?.1 ht
  obtain ⟨j, hj⟩ := List.mem_iff_getElem?.1 (k1 i t hi hk)
  have h3 := entriesAt_get e1 hj
  rw [hi] at h3
  have hjl := (List.getElem?_eq_some_iff.1 h3.symm).1
  rw [f1.length_eq] at hjl
  have := forall₂_get f1 h3.symm (List.getElem?_eq_getElem hjl)
  exact ⟨_, List.getElem_mem hjl, this.1, this.2.trans hk⟩

/-- The number of protected tokens does not fall. -/
theorem prunedTo_count {a b : List (ScoredToken F)} (h : PrunedTo a b) : a.countP (·.keep) ≤ b.length := by
  obtain ⟨ids, old, n1, e1, f1, k1⟩ := h
  rw [← f1.length_eq, ← entriesAt_length e1]
  have hc : a.countP (·.keep) = ((List.range a.length).filter (fun i => (a[i]?.map (·.keep)).getD false)).length := by
    rw [← List.countP_eq_length_filter]
    have hm : a = (List.range a.length).filterMap (fun i => a[i]?) := by
      clear k1 e1
      induction a with
      | nil => rfl
      | cons t a ih =>
        rw [List.length_cons, List.range_succ_eq_map]
        simp only [List.filterMap_cons, List.getElem?_cons_zero, List.filterMap_map, Function.comp_def,
          List.getElem?_cons_succ]
        rw [← ih]
    conv_lhs => rw [hm]
    rw [List.countP_filterMap]
  rw [hc]
  refine (List.subperm_of_subset (List.nodup_range.filter _) ?_).length_le
  intro i hi
  obtain ⟨_, h2⟩ := List.mem_filter.1 hi
  cases hx : a[i]? with
  | none => rw [hx] at h2; simp at h2
  | some t =>
    rw [hx] at h2
    exact k1 i t hx (by simpa using h2)

end lists

namespace Pruner
variable {F : Type} [TrainOps F]

/-- What is decided about a token, and why. -/
theorem judge_cases {numSamples numAlts : Nat} {freqs : List Nat} {i : Nat} {t : ScoredToken F} {a : Bool × List Nat}
    {v : Verdict F} (h : judge numSamples numAlts freqs i t a = .ok v) :
    (t.keep = true ∧ v = .keep) ∨ (t.keep = false ∧ ∃ f, freqs[i]? = some f ∧
      ((f = 0 ∧ a.1 = false ∧ v = .drop) ∨ ((f ≠ 0 ∨ a.1 = true) ∧ a.2 = [] ∧ v = .keep) ∨
       (f ≠ 0 ∧ a.2 ≠ [] ∧ ∃ l, lossOf numSamples numAlts freqs i a.2 = .ok l ∧ TrainOps.isNormal l = true ∧ v = .candidate l) ∨
       (f = 0 ∧ a.1 = true ∧ a.2 ≠ [] ∧ v = .drop))) := by
  unfold judge at h
  by_cases hk : t.keep = true
  · rw [if_pos hk] at h
    simp only [Except.ok.injEq] at h
    exact Or.inl ⟨hk, h.symm⟩
  · rw [if_neg hk] at h
    obtain ⟨f, hf, h⟩ := bind_ok h
    refine Or.inr ⟨by simpa using hk, f, idx_ok hf, ?_⟩
    by_cases h1 : (decide (f = 0) && !a.1) = true
    · rw [if_pos h1] at h
      simp only [res_pure, Except.ok.injEq] at h
      simp only [Bool.and_eq_true, decide_eq_true_eq, Bool.not_eq_true'] at h1
      exact Or.inl ⟨h1.1, h1.2, h.symm⟩
    · rw [if_neg h1] at h
      have h1' : f ≠ 0 ∨ a.1 = true := by
        by_cases hf0 : f = 0
        · right
          rw [hf0] at h1
          simpa using h1
        · exact Or.inl hf0
      by_cases h2 : a.2.isEmpty = true
      · rw [if_pos h2] at h
        simp only [res_pure, Except.ok.injEq] at h
        exact Or.inr (Or.inl ⟨h1', by simpa using h2, h.symm⟩)
      · rw [if_neg h2] at h
        have h2' : a.2 ≠ [] := by simpa using h2
        by_cases h3 : f ≠ 0
        · rw [if_pos h3] at h
          obtain ⟨l, hl, h⟩ := bind_ok h
          by_cases h4 : (!TrainOps.isNormal l) = true
          · rw [if_pos h4] at h; simp at h
          · rw [if_neg h4] at h
            simp only [res_pure, Except.ok.injEq] at h
            exact Or.inr (Or.inr (Or.inl ⟨h3, h2', l, hl, by simpa using h4, h.symm⟩))
        · rw [if_neg h3] at h
          simp only [res_pure, Except.ok.injEq] at h
          have h3' : f = 0 := by omega
          rcases h1' with h5 | h5
          · exact absurd h3' h5
          · exact Or.inr (Or.inr (Or.inr ⟨h3', h5, h2', h.symm⟩))

omit [TrainOps F] in
theorem resegments_shorter {vocab : List (ScoredToken F)} {bs : List UInt8} {alt : List Nat} (h : Resegments vocab bs alt) :
    ∃ toks : List (ScoredToken F), (toks.map (·.value)).flatten = bs ∧
      ∀ t ∈ toks, t ∈ vocab ∧ t.value ≠ [] ∧ t.value.length < bs.length := by
  obtain ⟨h1, ⟨toks, h2, h3⟩, h4⟩ := h
  have hne : ∀ t ∈ toks, t ∈ vocab ∧ t.value ≠ [] := by
    intro t ht
    have : some t ∈ toks.map some := List.mem_map_of_mem ht
    rw [← h2] at this
    obtain ⟨i, hi, hit⟩ := List.mem_map.1 this
    refine ⟨List.mem_of_getElem? hit, ?_⟩
    obtain ⟨v, hv, ⟨t', ht', e⟩, _⟩ := h4 i hi
    rw [hit] at ht'
    simp only [Option.some.injEq] at ht'
    rw [ht', e]
    exact hv
  refine ⟨toks, h3, fun t ht => ⟨(hne t ht).1, (hne t ht).2, ?_⟩⟩
  have hlen : 1 < toks.length := by
    have := congrArg List.length h2
    simp only [List.length_map] at this
    omega
  obtain ⟨s, r, rfl⟩ := List.append_of_mem ht
  rw [← h3]
  simp only [List.map_append, List.map_cons, List.flatten_append, List.flatten_cons, List.length_append]
  have : ∃ u ∈ s ++ r, 0 < u.value.length := by
    cases s with
    | cons u s => exact ⟨u, by simp, List.length_pos_iff.2 (hne u (by simp)).2⟩
    | nil =>
      cases r with
      | cons u r => exact ⟨u, by simp, List.length_pos_iff.2 (hne u (by simp)).2⟩
      | nil => simp at hlen
  obtain ⟨u, hu, hpos⟩ := this
  have hle : u.value.length ≤ ((s ++ r).map (·.value)).flatten.length := by
    rw [List.length_flatten]
    exact List.le_sum_of_mem (List.mem_map.2 ⟨u.value, List.mem_map.2 ⟨u, hu, rfl⟩, rfl⟩)
  rw [List.map_append, List.flatten_append, List.length_append] at hle
  omega

omit [TrainOps F] in
/-- If every removed token can be cut into shorter tokens, everything stays segmentable. -/
theorem segmentable_of_resegments {vocab w : List (ScoredToken F)}
    (h : ∀ t ∈ vocab, t ∈ w ∨ ∃ alt, Resegments vocab t.value alt) (bs : List UInt8) (hs : Segmentable vocab bs) :
    Segmentable w bs := by
  have join : ∀ pieces : List (List UInt8), (∀ p ∈ pieces, Segmentable w p) → Segmentable w pieces.flatten := by
    intro pieces
    induction pieces with
    | nil => intro _; exact ⟨[], rfl, by simp⟩
    | cons p pieces ih =>
      intro hp
      obtain ⟨q1, e1, f1⟩ := hp p (List.mem_cons_self ..)
      obtain ⟨q2, e2, f2⟩ := ih (fun x hx => hp x (List.mem_cons_of_mem _ hx))
      refine ⟨q1 ++ q2, by simp [e1, e2], ?_⟩
      intro x hx
      rcases List.mem_append.1 hx with hx | hx
      · exact f1 x hx
      · exact f2 x hx
  have one : ∀ n, ∀ t ∈ vocab, t.value ≠ [] → t.value.length ≤ n → Segmentable w t.value := by
    intro n
    induction n with
    | zero =>
      intro t _ h1 h2
      exact absurd (List.length_eq_zero_iff.1 (Nat.le_zero.1 h2)) h1
    | succ n ih =>
      intro t ht h1 h2
      rcases h t ht with h3 | ⟨alt, h3⟩
      · refine ⟨[t.value], by simp, ?_⟩
        intro p hp
        rw [List.mem_singleton.1 hp]
        exact ⟨h1, t, h3, rfl⟩
      · obtain ⟨toks, e, hall⟩ := resegments_shorter h3
        rw [← e]
        refine join _ ?_
        intro p hp
        obtain ⟨u, hu, rfl⟩ := List.mem_map.1 hp
        obtain ⟨u1, u2, u3⟩ := hall u hu
        exact ih u u1 u2 (by omega)
  obtain ⟨pieces, rfl, hp⟩ := hs
  refine join _ ?_
  intro p hpm
  obtain ⟨h1, t, h2, rfl⟩ := hp p hpm
  exact one _ t h2 h1 (Nat.le_refl _)

/-- One call of `prune_vocab`. -/
theorem pruneVocab_facts {c : Pruner F} {std : Std F} (hstd : StdLaws std) {vocab : List (ScoredToken F)}
    (hsize : vocab.length ≤ 4294967294) {rnd : Nat → F} {numSamples : Nat} {freqs : List Nat} {w : List (ScoredToken F)}
    {fuel₀ : Nat} (h : ∀ fuel ≥ fuel₀, pruneVocab c std (Model.from_ vocab) rnd numSamples freqs fuel = .ok w) :
    ∃ ids, ids.Nodup ∧ EntriesAt vocab ids w ∧ (∀ i t, vocab[i]? = some t → t.keep = true → i ∈ ids) ∧
      (∀ i t, vocab[i]? = some t → i ∉ ids → ∃ alt, Resegments vocab t.value alt) ∧
      (TrainLaws F → (∀ t ∈ vocab, TrainOps.isNan t.score = false) → ScoreSorted w) := by
  obtain ⟨alts, _, vs, ids, _, halts, h1, h2, h3, h4, h5, h6, _, _, _, _, h7⟩ := pruneVocab_spec hstd hsize h
  have hv : ∀ i t, vocab[i]? = some t → ∃ a v, alts[i]? = some a ∧ vs[i]? = some v ∧ AltOK vocab t.value a ∧
      judge numSamples vocab.length freqs i t a = .ok v := by
    intro i t ht
    have hlt := (List.getElem?_eq_some_iff.1 ht).1
    have ha : i < alts.length := by rw [← halts.length_eq]; exact hlt
    have hs : i < vs.length := by omega
    exact ⟨_, _, List.getElem?_eq_getElem ha, List.getElem?_eq_getElem hs,
      forall₂_get halts ht (List.getElem?_eq_getElem ha), h2 i t _ _ ht (List.getElem?_eq_getElem ha) (List.getElem?_eq_getElem hs)⟩
  refine ⟨ids, h3, h4, ?_, ?_, h7⟩
  · intro i t ht hk
    obtain ⟨a, v, _, hvi, _, hj⟩ := hv i t ht
    rcases judge_cases hj with ⟨_, rfl⟩ | ⟨hk', _⟩
    · exact h5 i hvi
    · rw [hk] at hk'; simp at hk'
  · intro i t ht hi
    obtain ⟨a, v, _, hvi, hok, hj⟩ := hv i t ht
    rcases judge_cases hj with ⟨_, rfl⟩ | ⟨_, f, _, h8 | h8 | h8 | h8⟩
    · exact absurd (h5 i hvi) hi
    · exact hok.1 h8.2.1
    · obtain ⟨_, _, rfl⟩ := h8
      exact absurd (h5 i hvi) hi
    · exact ⟨_, hok.2 h8.2.1⟩
    · exact ⟨_, hok.2 h8.2.2.1⟩

theorem alternativeVocab_spec : ∀ (vocab : List (ScoredToken F)) (freqs : List F) (k : Nat), vocab.length = freqs.length →
    ∃ (ids : List Nat) (old : List (ScoredToken F)), ids.Pairwise (· < ·) ∧ (∀ i ∈ ids, k ≤ i) ∧ ids.map (fun i => vocab[i - k]?) = old.map some ∧
      List.Forall₂ Rescored old (alternativeVocab vocab freqs) ∧
      (∀ i t, k ≤ i → vocab[i - k]? = some t → i ∉ ids → t.keep = false ∧ ∃ f, freqs[i - k]? = some f ∧ lt f threshold = true) := by
  intro vocab
  induction vocab with
  | nil =>
    intro freqs k _
    refine ⟨[], [], .nil, by simp, rfl, ?_, by simp⟩
    simp [alternativeVocab]
  | cons t vocab ih =>
    intro freqs k hl
    cases freqs with
    | nil => simp at hl
    | cons f freqs =>
      obtain ⟨ids, old, h1, h2, h3, h4, h5⟩ := ih freqs (k + 1) (by simpa using hl)
      have h3' : ids.map (fun i => (t :: vocab)[i - k]?) = old.map some := by
        rw [← h3]
        refine List.map_congr_left ?_
        intro i hi
        have := h2 i hi
        exact getElem?_cons_sub (by omega)
      by_cases hc : (lt f threshold && !t.keep) = true
      · have he : alternativeVocab (t :: vocab) (f :: freqs) = alternativeVocab vocab freqs := by
          unfold alternativeVocab
          rw [List.zip_cons_cons, List.filterMap_cons, if_pos hc]
        rw [he]
        refine ⟨ids, old, h1, fun i hi => by have := h2 i hi; omega, h3', h4, ?_⟩
        intro i u hi hu hn
        by_cases hik : i = k
        · subst hik
          simp only [Nat.sub_self, List.getElem?_cons_zero, Option.some.injEq] at hu
          subst hu
          simp only [Bool.and_eq_true, Bool.not_eq_true'] at hc
          exact ⟨hc.2, f, by simp, hc.1⟩
        · rw [getElem?_cons_sub (by omega)] at hu ⊢
          exact h5 i u (by omega) hu hn
      · have he : alternativeVocab (t :: vocab) (f :: freqs) =
            t.cloneWithScore (TrainOps.max f threshold) :: alternativeVocab vocab freqs := by
          unfold alternativeVocab
          rw [List.zip_cons_cons, List.filterMap_cons, if_neg hc]
        rw [he]
        refine ⟨k :: ids, t :: old, List.pairwise_cons.2 ⟨fun i hi => by have := h2 i hi; omega, h1⟩, ?_, ?_, .cons ⟨rfl, rfl⟩ h4, ?_⟩
        · intro i hi
          rcases List.mem_cons.1 hi with rfl | hi
          · exact Nat.le_refl _
          · have := h2 i hi; omega
        · rw [List.map_cons, h3']; simp
        · intro i u hi hu hn
          rw [List.mem_cons, not_or] at hn
          rw [getElem?_cons_sub (by omega)] at hu ⊢
          exact h5 i u (by omega) hu hn.2

theorem mapM_length {α β : Type} {f : α → Res β} : ∀ {l : List α} {r : List β}, l.mapM f = .ok r → r.length = l.length := by
  intro l
  induction l with
  | nil =>
    intro r h
    simp only [List.mapM_nil, res_pure, Except.ok.injEq] at h
    rw [← h]
    rfl
  | cons a l ih =>
    intro r h
    rw [List.mapM_cons] at h
    obtain ⟨b, _, h⟩ := bind_ok h
    obtain ⟨bs, hbs, h⟩ := bind_ok h
    simp only [res_pure, Except.ok.injEq] at h
    rw [← h, List.length_cons, List.length_cons, ih hbs]

/-- The M-step. -/
theorem mStep_facts {vocab : List (ScoredToken F)} {freqs : List F} {fuel : Nat} {v : List (ScoredToken F)}
    (h : mStep (Model.from_ vocab) freqs fuel = .ok v) :
    ∃ ids old, ids.Pairwise (· < ·) ∧ EntriesAt vocab ids old ∧ List.Forall₂ Rescored old v ∧
      (∀ i t, vocab[i]? = some t → i ∉ ids → t.keep = false ∧ ∃ f, freqs[i]? = some f ∧ lt f threshold = true) ∧
      (∀ t ∈ v, TrainOps.isNan t.score = false ∧ TrainOps.isInfinite t.score = false) := by
  unfold mStep at h
  rw [Model.vocabSize, Model.from_vocab] at h
  by_cases hl : vocab.length ≠ freqs.length
  · rw [if_pos hl] at h; simp at h
  · rw [if_neg hl] at h
    obtain ⟨logsum, _, h⟩ := bind_ok h
    obtain ⟨scores, hs, h⟩ := bind_ok h
    by_cases hb : (scores.any fun s => TrainOps.isNan s || TrainOps.isInfinite s) = true
    · rw [if_pos hb] at h; simp at h
    · rw [if_neg hb] at h
      simp only [res_pure, Except.ok.injEq] at h
      obtain ⟨ids, old, h1, _, h3, h4, h5⟩ := alternativeVocab_spec vocab freqs 0 (by omega)
      simp only [Nat.sub_zero] at h3 h5
      have hlen : scores.length = (alternativeVocab vocab freqs).length := mapM_length hs
      have hrs : ∀ (alt : List (ScoredToken F)) (old : List (ScoredToken F)) (sc : List F), sc.length = alt.length →
          List.Forall₂ Rescored old alt → List.Forall₂ Rescored old ((alt.zip sc).map fun p => p.1.cloneWithScore p.2) := by
        intro alt
        induction alt with
        | nil => intro old sc _ h; simpa using h
        | cons a alt ih =>
          intro old sc hl h
          cases sc with
          | nil => simp at hl
          | cons s sc =>
            cases h with
            | @cons o _ os _ ho hos => exact .cons ⟨ho.1, ho.2⟩ (ih os sc (by simpa using hl) hos)
      refine ⟨ids, old, h1, h3, ?_, fun i t ht hn => h5 i t (Nat.zero_le _) ht hn, ?_⟩
      · rw [← h]
        exact hrs _ _ _ hlen h4
      · intro t ht
        rw [← h] at ht
        obtain ⟨p, hp, rfl⟩ := List.mem_map.1 ht
        have hp2 := (List.of_mem_zip hp).2
        have hb' : ∀ x ∈ scores, (TrainOps.isNan x || TrainOps.isInfinite x) = false := by
          intro x hx
          by_contra hne
          exact hb (List.any_eq_true.2 ⟨x, hx, Bool.eq_true_of_not_eq_false hne⟩)
        have := hb' p.2 hp2
        rw [Bool.or_eq_false_iff] at this
        exact this

end Pruner
end Tokengeex

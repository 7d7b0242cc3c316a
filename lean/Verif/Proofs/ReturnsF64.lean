import Verif.Proofs.NBestFirstF64
/-
For C49 with doubles: how small a prune step makes a vocabulary, and what stays true during pruning.
-/
namespace Tokengeex
open Spec ScoreOps RealOps Relation

namespace Pruner
variable [Elementary]

/-- The loop that segments the tokens, with doubles: a token that is better than every other way of cutting its bytes gets an
alternative. -/
theorem segmentTokens_f64 {vocab : List (ScoredToken F64)} (hsize : vocab.length ≤ 4294967294) (hwf : WellFormed vocab)
    {B : ℝ} (hB0 : 0 ≤ B) (hB : B ≤ 64) (hscores : ∀ t ∈ vocab, Spec.Finite t.score ∧ |real t.score| ≤ B)
    (hlens : ∀ t ∈ vocab, t.value.length ≤ 256) (rnd : Nat → F64) : ∀ (ts : List (ScoredToken F64)), (∀ t ∈ ts, t ∈ vocab) →
    ∀ (p : VecPool) (l : Lattice F64), History p l →
    ∃ alts fuel₀, (∀ fuel ≥ fuel₀, segmentTokens (agendaHeap F64) (Model.from_ vocab) rnd fuel ts (l, p) = .ok alts) ∧
      List.Forall₂ (fun t a => Replaceable vocab t → a.2 ≠ []) ts alts := by
  intro ts
  induction ts with
  | nil => intro _ p l _; exact ⟨[], 0, fun _ _ => rfl, .nil⟩
  | cons t ts ih =>
    intro hin p l hist
    have htv := hin t (List.mem_cons_self ..)
    obtain ⟨i, hti⟩ := List.mem_iff_getElem?.1 htv
    obtain ⟨⟨p', g1, gh⟩, _⟩ := C32_reuse p l hist t.value
    obtain ⟨es, k, g2, g3, g4, _, g6⟩ := C33_populate vocab t.value (zero : F64) rnd
    have hes : ∀ e, e ∈ es ↔ TokenAt vocab t.value e := fun e => ⟨g3 e, g6 (by decide) e⟩
    have hins : Inside t.value.length es := by
      intro e he
      obtain ⟨a, b, _⟩ := g3 e he
      exact ⟨a, b⟩
    have hid : ∀ e ∈ es, e.id ≠ 4294967294 := by
      intro e he
      obtain ⟨_, _, ⟨⟨t, ht, _⟩, _⟩, _⟩ := g3 e he
      have := (List.getElem?_eq_some_iff.1 ht).1
      omega
    have hgap : NoGaps t.value.length es := by
      intro q hq
      rcases C34_no_gaps vocab t.value (hwf.covered t htv) q (by
        rcases hq with hq | ⟨e, he, hq⟩
        · exact Or.inl hq
        · exact Or.inr ⟨e, g3 e he, hq⟩) with h | ⟨e, he, h⟩
      · exact Or.inl h
      · exact Or.inr ⟨e, (hes e).2 he, h⟩
    have hfold : es.foldlM (fun l e => Lattice.insert l e.pos e.id e.len e.score) (latticeOf t.value []) = .ok (latticeOf t.value es) := by
      simpa using insertAll t.value es hins
    obtain ⟨l', results, paths, f1, h7, h8, h9, h10, h11, h12⟩ := C35_complete (agendaHeap F64) _ agenda_laws p p' l _
      (latticeOf t.value es) hist t.value es g1 hins hfold hid (entriesDistinct_nodup g4) 2 (by omega) (Or.inl ⟨by omega, hgap⟩)
    obtain ⟨a, ha, _, ha2, _⟩ := alternativeOf_ok results
    obtain ⟨alts, f2, h14, h15⟩ := ih (fun u hu => hin u (List.mem_cons_of_mem _ hu)) p' l' (.other _ gh)
    refine ⟨a :: alts, max f1 f2, ?_, .cons ?_ h15⟩
    · intro fuel hf
      rw [segmentTokens, g1]
      simp only [res_bind_ok]
      rw [g2]
      simp only [res_bind_ok]
      rw [h7 fuel (by omega)]
      simp only [res_bind_ok]
      rw [ha]
      simp only [res_bind_ok]
      rw [h14 fuel (by omega)]
      rfl
    · rintro ⟨⟨alt, halt⟩, hrep⟩
      have hpos := List.length_pos_iff.2 (hwf.nonempty t htv)
      let e0 : Entry F64 := ⟨0, i, t.value.length, t.score⟩
      have he0 : TokenAt vocab t.value e0 := by
        refine ⟨hpos, by simp [e0], ?_, t, hti, rfl⟩
        simp only [e0, List.drop_zero, List.take_length]
        exact lastIndex_of_nodup hwf.nodup hti
      have hown : PathOf t.value.length es [e0] := by
        refine ⟨?_, by simp [Contiguous, e0]⟩
        intro e he
        rw [List.mem_singleton.1 he]
        exact (hes e0).2 he0
      have hown1 : ∀ q, PathOf t.value.length es q → q.length = 1 → q = [e0] := by
        intro q hq hl
        obtain ⟨e, rfl⟩ := List.length_eq_one_iff.1 hl
        obtain ⟨q1, q2⟩ := hq
        simp only [Contiguous] at q2
        congr 1
        by_contra hne
        have : Std.Symm (fun a b : Entry F64 => ¬ (a.pos = b.pos ∧ a.len = b.len)) := ⟨by intro a b h; omega⟩
        exact g4.forall (q1 e (List.mem_singleton.2 rfl)) ((hes e0).2 he0) hne (by simp [e0]; omega)
      have hnil : ∀ q, PathOf t.value.length es q → q ≠ [] := by
        rintro q ⟨_, q2⟩ rfl
        simp only [Contiguous] at q2
        omega
      have hbest : ∀ other, PathOf t.value.length es other → other ≠ [e0] → F64.lt (entriesScore other) e0.score = true := by
        intro q hq hne
        have hl : 1 < q.length := by
          have := List.length_pos_iff.2 (hnil q hq)
          by_contra hlt
          exact hne (hown1 q hq (by omega))
        have q1' := fun e he => (hes e).1 (hq.1 e he)
        obtain ⟨s1, s2⟩ := spells_of_contiguous q 0 q1' hq.2
        rw [← total_of_path q1']
        exact hrep _ ⟨by simpa using hl, by simpa using s1, s2⟩
      have hlen := hlens t htv
      have hlen' : (t.value.length : ℝ) ≤ 256 := by exact_mod_cast hlen
      have hbig : ((t.value.length : ℝ) + 2) * B ≤ 2 ^ 998 := by
        have h1 : ((t.value.length : ℝ) + 2) * B ≤ 258 * 64 := mul_le_mul (by linarith) hB hB0 (by norm_num)
        have h2 : (2 : ℝ) ^ 15 ≤ 2 ^ 998 := pow_le_pow_right₀ (by norm_num) (by norm_num)
        have h3 : (258 : ℝ) * 64 ≤ 2 ^ 15 := by norm_num
        exact h1.trans (h3.trans h2)
      obtain ⟨x, rest, hres, hx⟩ := nbest_first hist g1 hins hfold hid g4 hgap (by omega) hB0 (by
          intro e he
          obtain ⟨_, _, _, u, hu, hs⟩ := g3 e he
          rw [← hs]
          exact hscores u (List.mem_of_getElem? hu)) (by omega) hbig ((hes e0).2 he0) rfl rfl hbest h7
      -- there is a second result
      obtain ⟨q, q1, q2, q3⟩ := contiguous_of_spells alt 0 (Nat.zero_le _) (by simpa using halt.2.1) halt.2.2
      have hq : PathOf t.value.length es q := ⟨fun e he => (hes e).2 (q2 e he), q3⟩
      have hql : 1 < q.length := by
        have := halt.1
        rw [← q1] at this
        simpa using this
      have hlen2 : 1 < results.length := by
        have hpl : paths.length = results.length := by
          unfold AreResults at h8
          rw [← h8, List.length_map]
        by_cases hqp : q ∈ paths
        · by_contra hlt
          have hsub : rest = [] := by
            rw [hres] at hlt
            simp only [List.length_cons] at hlt
            exact List.length_eq_zero_iff.1 (by omega)
          unfold AreResults at h8
          rw [hres, hsub, List.map_singleton, hx] at h8
          rw [← h8, List.mem_singleton] at hqp
          rw [hqp] at hql
          simp at hql
        · have := h12 q hq hqp
          omega
      refine ha2.2 ?_
      rcases rest with _ | ⟨y, rest⟩
      · rw [hres] at hlen2; simp at hlen2
      · refine ⟨x, y, rest, hres, ?_, ?_⟩
        · have := congrArg List.length hx
          simpa using this
        · rintro rfl
          refine hnil [] (h10 [] ?_) rfl
          unfold AreResults at h8
          rw [← h8, hres]
          simp

open Classical in
/-- A prune step with doubles leaves no more tokens than it should, if it can remove enough. -/
theorem pruneStep_size {c : Pruner F64} {std : Std F64} (hstd : StdLaws std) (hheap : std.heap = agendaHeap F64) {samples : List Str}
    {vocab : List (ScoredToken F64)} (hsize : vocab.length ≤ 4294967294) (hwf : WellFormed vocab)
    (hscores : ∀ t ∈ vocab, Spec.Finite t.score ∧ |real t.score| ≤ 64) (hlens : ∀ t ∈ vocab, t.value.length ≤ 256)
    (hforced : vocab.countP (fun t => decide (Forced vocab t)) ≤ max (c.shrink vocab.length) c.vocabSize) {m' : Model F64}
    (h : PruneStep c std samples (Model.from_ vocab) m') : m'.vocabSize ≤ max (c.shrink vocab.length) c.vocabSize := by
  obtain ⟨rnd, freqs, w, fuel₀, _, hw, rfl⟩ := h
  rw [Model.vocabSize, Model.from_vocab]
  obtain ⟨alts, f1, vs, ids, hseg, _, h1, h2, _, _, _, _, h7, _⟩ := pruneVocab_spec hstd hsize hw
  obtain ⟨alts', f2, hseg', halts⟩ := segmentTokens_f64 hsize hwf (by norm_num) le_rfl hscores hlens rnd vocab (fun t ht => ht)
    (VecPool.withCapacity 32) Lattice.new (.start 32)
  have heq : alts' = alts := by
    have e1 := hseg (max f1 f2) (by omega)
    have e2 := hseg' (max f1 f2) (by omega)
    rw [hheap] at e1
    rw [e1] at e2
    simpa using e2.symm
  subst heq
  refine h7 (Nat.le_trans ?_ hforced)
  refine length_le_countP (List.nodup_append.1 (ids_nodup vs 0)).1 ?_
  intro i hi
  rw [mem_keepIds] at hi
  simp only [Nat.zero_le, true_and, Nat.sub_zero] at hi
  have hlt : i < vocab.length := by rw [← h1]; exact (List.getElem?_eq_some_iff.1 hi).1
  have ha : i < alts'.length := by rw [← halts.length_eq]; exact hlt
  refine ⟨vocab[i], List.getElem?_eq_getElem hlt, ?_⟩
  have hj := h2 i _ _ _ (List.getElem?_eq_getElem hlt) (List.getElem?_eq_getElem ha) hi
  have hex := forall₂_get halts (List.getElem?_eq_getElem hlt) (List.getElem?_eq_getElem ha)
  rw [decide_eq_true_eq]
  rcases judge_cases hj with ⟨hk, _⟩ | ⟨_, f, _, q | q | q | q⟩
  · exact Or.inl hk
  · exact absurd q.2.2 (by simp)
  · exact Or.inr fun hr => hex hr q.2.1
  · obtain ⟨_, _, l, _, _, q5⟩ := q
    simp at q5
  · exact absurd q.2.2.2 (by simp)

theorem emSteps_snoc {c : Pruner F64} {samples : List Str} {n : Nat} {m m₁ m₂ : Model F64} (h : EMSteps c samples n m m₁)
    (h' : EMStep c samples m₁ m₂) : EMSteps c samples (n + 1) m m₂ := by
  induction h with
  | zero m => exact .succ h' (.zero _)
  | succ h1 _ ih => exact .succ h1 (ih h')

end Pruner

variable [Elementary]

/-- A vocabulary stays as it has to be during pruning. -/
theorem Pruner.run_fit {ε η : ℝ} (hln : LnWithin ε) (hexp : ExpWithin η) (hε : ε ≤ (1 / 2) ^ 40) (hη : η ≤ (1 / 2) ^ 40)
    {c : Pruner F64} {std : Std F64} (hstd : StdLaws std) {samples : List Str} {vocab : List (ScoredToken F64)}
    (hfit : FitForDoubles vocab samples) {m : Model F64} (h : ReflTransGen (Pass c std samples) (Model.from_ vocab) m) :
    ∃ w, m = Model.from_ w ∧ PrunedTo vocab w ∧ FitForDoubles w samples := by
  induction h with
  | refl => exact ⟨vocab, rfl, prunedTo_refl _, hfit⟩
  | @tail m₁ m₂ _ h2 ih =>
    obtain ⟨w₁, rfl, h3, h4⟩ := ih
    obtain ⟨_, m₁, h5, h6⟩ := h2
    obtain ⟨w₂, rfl, h7, h8⟩ := emSteps_fit hln hexp hε hη h5 w₁ rfl h4
    obtain ⟨w, ids, rfl, k1, k2, k3, _⟩ := C48_prune_step c std hstd samples w₂ (by have := h8.size; omega) _ h6
    have hp : PrunedTo w₂ w := ⟨ids, w, k1, k2, List.forall₂_same.2 (fun _ _ => ⟨rfl, rfl⟩), k3⟩
    exact ⟨w, rfl, prunedTo_trans (prunedTo_trans h3 h7) hp, (prunedTo_length hp).trans h8.size,
      fun t ht => h8.scores t (entriesAt_sub k2 ht), fun t ht => h8.lengths t (entriesAt_sub k2 ht),
      fun s hs => prunedTo_bytesKept hp (h8.covered s hs), h8.number, h8.bytes⟩

end Tokengeex

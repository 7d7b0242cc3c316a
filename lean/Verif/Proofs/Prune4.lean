import Verif.Proofs.Prune3
/-
Pruning with exact arithmetic: the alternative of a token is its best one.
-/
namespace Tokengeex
open Spec ScoreOps RealOps

theorem countP_indices {α : Type} (a : List α) (p : α → Bool) :
    a.countP p = ((List.range a.length).filter (fun i => (a[i]?.map p).getD false)).length := by
  rw [← List.countP_eq_length_filter]
  have hm : a = (List.range a.length).filterMap (fun i => a[i]?) := by
    induction a with
    | nil => rfl
    | cons t a ih =>
      rw [List.length_cons, List.range_succ_eq_map]
      simp only [List.filterMap_cons, List.getElem?_cons_zero, List.filterMap_map, Function.comp_def,
        List.getElem?_cons_succ]
      rw [← ih]
  conv_lhs => rw [hm]
  rw [List.countP_filterMap]

theorem length_le_countP {α : Type} {a : List α} {p : α → Bool} {ids : List Nat} (hnd : ids.Nodup)
    (h : ∀ i ∈ ids, ∃ t, a[i]? = some t ∧ p t = true) : ids.length ≤ a.countP p := by
  rw [countP_indices]
  refine (List.subperm_of_subset hnd ?_).length_le
  intro i hi
  obtain ⟨t, h1, h2⟩ := h i hi
  refine List.mem_filter.2 ⟨List.mem_range.2 (List.getElem?_eq_some_iff.1 h1).1, ?_⟩
  rw [h1]
  simpa using h2

namespace Pruner
variable {F : Type} [TrainOps F]

/-- What is found out about a token, with exact arithmetic. -/
def ExactAlt (vocab : List (ScoredToken F)) (t : ScoredToken F) (a : Bool × List Nat) : Prop :=
  (a.1 = true ∧ a.2 = [] ∧ ¬ ∃ alt, Resegments vocab t.value alt) ∨
  (a.1 = true ∧ BestAlternative vocab t.value a.2 ∧ lt t.score (totalScore vocab a.2) = false) ∨
  (a.1 = false ∧ a.2 = [] ∧ ∃ alt, BestAlternative vocab t.value alt ∧ lt (totalScore vocab alt) t.score = false)

theorem total_of_path {vocab : List (ScoredToken F)} {bs : List UInt8} {q : List (Entry F)}
    (h : ∀ e ∈ q, TokenAt vocab bs e) : totalScore vocab (q.map (·.id)) = entriesScore q := by
  unfold totalScore entriesScore
  rw [List.map_map]
  congr 1
  refine List.map_congr_left ?_
  intro e he
  obtain ⟨_, _, _, t, ht, hs⟩ := h e he
  show scoreOf vocab e.id = e.score
  rw [scoreOf_some ht, hs]

theorem exactAlt_of (R : ExactArith F) {vocab : List (ScoredToken F)} (hnd : NoDuplicates vocab) {i : Nat} {t : ScoredToken F}
    (ht : vocab[i]? = some t) (hne : t.value ≠ []) {es : List (Entry F)} (hes : ∀ e, e ∈ es ↔ TokenAt vocab t.value e)
    (hd : es.Pairwise (fun a b => ¬ (a.pos = b.pos ∧ a.len = b.len))) {results : List (List (LNode F))}
    {paths : List (List (Entry F))} (hr : AreResults results paths) (hpnd : paths.Nodup)
    (hp : ∀ q ∈ paths, PathOf t.value.length es q) (hle : paths.length ≤ 2) (hno : NonIncreasing paths)
    (hbest : ∀ other, PathOf t.value.length es other → other ∉ paths →
        paths.length = 2 ∧ ∀ q ∈ paths, lt (entriesScore q) (entriesScore other) = false)
    {a : Bool × List Nat} (ha : alternativeOf results = .ok a) : ExactAlt vocab t a := by
  have hok := altOK_of (fun e he => (hes e).1 he) hd hr hpnd hp ha
  obtain ⟨a', ha', h1, h2, h3⟩ := alternativeOf_ok results
  rw [ha] at ha'
  simp only [Except.ok.injEq] at ha'
  subst ha'
  have hpos := List.length_pos_iff.2 hne
  -- the token itself
  let e0 : Entry F := ⟨0, i, t.value.length, t.score⟩
  have he0 : TokenAt vocab t.value e0 := by
    refine ⟨hpos, by simp [e0], ?_, t, ht, rfl⟩
    simp only [e0, List.drop_zero, List.take_length]
    exact lastIndex_of_nodup hnd ht
  have hown : PathOf t.value.length es [e0] := by
    refine ⟨?_, by simp [Contiguous, e0]⟩
    intro e he
    rw [List.mem_singleton.1 he]
    exact (hes e0).2 he0
  have hown1 : ∀ q, PathOf t.value.length es q → q.length = 1 → q = [e0] := by
    intro q hq hl
    obtain ⟨e, rfl⟩ := List.length_eq_one_iff.1 hl
    obtain ⟨q1, q2⟩ := hq
    simp only [Contiguous] at q2
    congr 1
    by_contra hne
    have : Std.Symm (fun a b : Entry F => ¬ (a.pos = b.pos ∧ a.len = b.len)) := ⟨by intro a b h; omega⟩
    exact hd.forall (q1 e (List.mem_singleton.2 rfl)) ((hes e0).2 he0) hne (by simp [e0]; omega)
  have hscore0 : R.val (entriesScore [e0]) = R.val t.score := by
    simp [entriesScore, e0, R.add, R.zero]
  have hirr : ∀ x : F, lt x x = false := fun x => (exact_lt_false R x x).2 le_rfl
  -- paths of resegmentations
  have hpath : ∀ alt, Resegments vocab t.value alt →
      ∃ q, PathOf t.value.length es q ∧ 1 < q.length ∧ totalScore vocab alt = entriesScore q := by
    rintro alt ⟨g1, g2, g3⟩
    obtain ⟨q, q1, q2, q3⟩ := contiguous_of_spells alt 0 (Nat.zero_le _) (by simpa using g2) g3
    refine ⟨q, ⟨fun e he => (hes e).2 (q2 e he), q3⟩, ?_, ?_⟩
    · rw [← q1] at g1; simpa using g1
    · rw [← q1, total_of_path q2]
  have hreseg : ∀ q, PathOf t.value.length es q → 1 < q.length → Resegments vocab t.value (q.map (·.id)) ∧
      totalScore vocab (q.map (·.id)) = entriesScore q := by
    rintro q ⟨q1, q2⟩ hl
    have q1' := fun e he => (hes e).1 (q1 e he)
    obtain ⟨s1, s2⟩ := spells_of_contiguous q 0 q1' q2
    exact ⟨⟨by simpa using hl, by simpa using s1, s2⟩, total_of_path q1'⟩
  unfold AreResults at hr
  match hres : results with
  | [] | [_] =>
    left
    refine ⟨?_, ?_, ?_⟩
    · cases h : a.1 with
      | true => rfl
      | false => obtain ⟨x, y, r, e, _⟩ := h1.1 h; simp at e
    · by_contra h
      obtain ⟨x, y, r, e, _⟩ := h2.1 h; simp at e
    · rintro ⟨alt, hal⟩
      obtain ⟨q, q1, q2, _⟩ := hpath alt hal
      have hlen : paths.length ≤ 1 := by rw [← hr]; simp
      have hin : ∀ o, PathOf t.value.length es o → o ∈ paths := by
        intro o ho
        by_contra hn
        have := (hbest o ho hn).1
        omega
      have h5 := hin _ hown
      have h6 := hin q q1
      have : q = [e0] := by
        match paths, hlen, h5, h6 with
        | [p], _, h5, h6 =>
          rw [List.mem_singleton.1 h5, List.mem_singleton.1 h6]
      rw [this] at q2
      simp at q2
  | x :: y :: rest =>
    have hrest : rest = [] := by
      have : (x :: y :: rest).length = paths.length := by rw [← hr]; simp
      simp only [List.length_cons] at this
      exact List.length_eq_zero_iff.1 (by omega)
    subst hrest
    simp only [List.map_cons, List.map_nil] at hr
    have hX : PathOf t.value.length es (x.map nodeEntry) := hp _ (by rw [← hr]; simp)
    have hY : PathOf t.value.length es (y.map nodeEntry) := hp _ (by rw [← hr]; simp)
    have hXY : x.map nodeEntry ≠ y.map nodeEntry := by
      rw [← hr] at hpnd
      simpa using hpnd
    have hord : lt (entriesScore (x.map nodeEntry)) (entriesScore (y.map nodeEntry)) = false := by
      rw [← hr] at hno
      exact (List.pairwise_cons.1 hno).1 _ (by simp)
    have hnil : ∀ q, PathOf t.value.length es q → q ≠ [] := by
      rintro q ⟨_, q2⟩ rfl
      simp only [Contiguous] at q2
      omega
    by_cases hx : x.length = 1
    · right; left
      have hxe := hown1 _ hX (by simpa using hx)
      have hids : (y.map nodeEntry).map (·.id) = y.map (·.tokenId) := by simp [nodeEntry]
      have hylen : 1 < (y.map nodeEntry).length := by
        have := List.length_pos_iff.2 (hnil _ hY)
        by_contra hlt
        exact hXY (hxe.trans (hown1 _ hY (by omega)).symm)
      obtain ⟨s1, s2⟩ := hreseg _ hY hylen
      rw [hids] at s1 s2
      have ha2 := h3 x y [] rfl hx
      rw [ha2]
      refine ⟨?_, ⟨s1, ?_⟩, ?_⟩
      · cases h : a.1 with
        | true => rfl
        | false =>
          obtain ⟨x', y', r', e, hl⟩ := h1.1 h
          simp only [List.cons.injEq] at e
          rw [← e.1] at hl
          omega
      · intro other ho
        obtain ⟨q, q1, q2, q3⟩ := hpath other ho
        rw [s2, q3]
        by_cases hq : q ∈ paths
        · rw [← hr] at hq
          simp only [List.mem_cons, List.not_mem_nil, or_false] at hq
          rcases hq with rfl | rfl
          · rw [List.length_map] at q2; omega
          · exact hirr _
        · exact (hbest q q1 hq).2 _ (by rw [← hr]; simp)
      · rw [s2, exact_lt_false R, ← hscore0, ← hxe, ← exact_lt_false R]
        exact hord
    · right; right
      have hxlen : 1 < (x.map nodeEntry).length := by
        have := List.length_pos_iff.2 (hnil _ hX)
        rw [List.length_map] at this ⊢
        omega
      obtain ⟨s1, s2⟩ := hreseg _ hX hxlen
      have hall : ∀ q, PathOf t.value.length es q → lt (entriesScore (x.map nodeEntry)) (entriesScore q) = false := by
        intro q q1
        by_cases hq : q ∈ paths
        · rw [← hr] at hq
          simp only [List.mem_cons, List.not_mem_nil, or_false] at hq
          rcases hq with rfl | rfl
          · exact hirr _
          · exact hord
        · exact (hbest q q1 hq).2 _ (by rw [← hr]; simp)
      refine ⟨h1.2 ⟨x, y, [], rfl, by simpa using hxlen⟩, ?_, _, ⟨s1, ?_⟩, ?_⟩
      · by_contra h
        obtain ⟨x', y', r', e, hl, _⟩ := h2.1 h
        simp only [List.cons.injEq] at e
        rw [← e.1] at hl
        exact hx hl
      · intro other ho
        obtain ⟨q, q1, _, q3⟩ := hpath other ho
        rw [s2, q3]
        exact hall q q1
      · rw [s2, exact_lt_false R, ← hscore0, ← exact_lt_false R]
        exact hall _ hown

/-- The loop that segments the tokens, with exact arithmetic. -/
theorem segmentTokens_exact (R : ExactArith F) {heap : Heap F} {ok : List (Hypo F) → Prop} (hheap : HeapLaws heap ok)
    (hmax : HeapMax heap ok) {vocab : List (ScoredToken F)} (hsize : vocab.length ≤ 4294967294) (hwf : WellFormed vocab)
    (rnd : Nat → F) : ∀ (ts : List (ScoredToken F)), (∀ t ∈ ts, t ∈ vocab) → ∀ (p : VecPool) (l : Lattice F), History p l →
    ∃ alts fuel₀, (∀ fuel ≥ fuel₀, segmentTokens heap (Model.from_ vocab) rnd fuel ts (l, p) = .ok alts) ∧
      List.Forall₂ (ExactAlt vocab) ts alts := by
  intro ts
  induction ts with
  | nil => intro _ p l _; exact ⟨[], 0, fun _ _ => rfl, .nil⟩
  | cons t ts ih =>
    intro hin p l hist
    have htv := hin t (List.mem_cons_self ..)
    obtain ⟨i, hti⟩ := List.mem_iff_getElem?.1 htv
    obtain ⟨⟨p', g1, gh⟩, _⟩ := C32_reuse p l hist t.value
    obtain ⟨es, k, g2, g3, g4, _, g6⟩ := C33_populate vocab t.value zero rnd
    have hz : lt (zero : F) zero = false := (exact_lt_false R _ _).2 le_rfl
    have hes : ∀ e, e ∈ es ↔ TokenAt vocab t.value e := fun e => ⟨g3 e, g6 hz e⟩
    have hins : Inside t.value.length es := by
      intro e he
      obtain ⟨a, b, _⟩ := g3 e he
      exact ⟨a, b⟩
    have hid : ∀ e ∈ es, e.id ≠ 4294967294 := by
      intro e he
      obtain ⟨_, _, ⟨⟨t, ht, _⟩, _⟩, _⟩ := g3 e he
      have := (List.getElem?_eq_some_iff.1 ht).1
      omega
    have hgap : NoGaps t.value.length es := by
      intro q hq
      rcases C34_no_gaps vocab t.value (hwf.covered t htv) q (by
        rcases hq with hq | ⟨e, he, hq⟩
        · exact Or.inl hq
        · exact Or.inr ⟨e, g3 e he, hq⟩) with h | ⟨e, he, h⟩
      · exact Or.inl h
      · exact Or.inr ⟨e, (hes e).2 he, h⟩
    obtain ⟨l', results, paths, f1, h7, h8, h9, h10, h11, h12, h13⟩ := C35_nbest R heap ok hheap hmax p p' l _ (latticeOf t.value es)
      hist t.value es g1 hins (by simpa using insertAll t.value es hins) hid (entriesDistinct_nodup g4) hgap 2 (by omega)
      (Or.inl (by omega))
    obtain ⟨a, ha, _⟩ := alternativeOf_ok results
    obtain ⟨alts, f2, h14, h15⟩ := ih (fun u hu => hin u (List.mem_cons_of_mem _ hu)) p' l' (.other _ gh)
    refine ⟨a :: alts, max f1 f2, ?_, .cons (exactAlt_of R hwf.nodup hti (hwf.nonempty t htv) hes g4 h8 h9 h10 h11 h12 h13 ha) h15⟩
    intro fuel hf
    rw [segmentTokens, g1]
    simp only [res_bind_ok]
    rw [g2]
    simp only [res_bind_ok]
    rw [h7 fuel (by omega)]
    simp only [res_bind_ok]
    rw [ha]
    simp only [res_bind_ok]
    rw [h14 fuel (by omega)]
    rfl

open Classical in
/-- A prune step, with exact arithmetic. -/
theorem pruneVocab_exact (R : ExactArith F) {c : Pruner F} {std : Std F} (hstd : StdLaws std)
    {ok : List (Hypo F) → Prop} (hheap : HeapLaws std.heap ok) (hmax : HeapMax std.heap ok)
    {vocab : List (ScoredToken F)}
    (hsize : vocab.length ≤ 4294967294) (hwf : WellFormed vocab) {rnd : Nat → F} {numSamples : Nat} {freqs : List Nat}
    {w : List (ScoredToken F)} {fuel₀ : Nat}
    (h : ∀ fuel ≥ fuel₀, pruneVocab c std (Model.from_ vocab) rnd numSamples freqs fuel = .ok w) :
    ∃ ids, ∃ alt : Nat → List Nat, ∃ loss : Nat → F, ids.Nodup ∧ EntriesAt vocab ids w ∧
      (vocab.countP (fun t => decide (Forced vocab t)) ≤ max (c.shrink vocab.length) c.vocabSize →
        w.length ≤ max (c.shrink vocab.length) c.vocabSize) ∧
      (∀ i t f, vocab[i]? = some t → freqs[i]? = some f → f ≠ 0 → t.keep = false → (i ∉ ids ∨ Replaceable vocab t) →
        BestAlternative vocab t.value (alt i) ∧ lossOf numSamples vocab.length freqs i (alt i) = .ok (loss i) ∧
        (i ∉ ids → w.length = max (c.shrink vocab.length) c.vocabSize)) ∧
      (TrainLaws F → ∀ i t f j u g, vocab[i]? = some t → freqs[i]? = some f → f ≠ 0 → i ∉ ids →
        vocab[j]? = some u → freqs[j]? = some g → g ≠ 0 → j ∈ ids → u.keep = false → Replaceable vocab u →
        lt (loss j) (loss i) = false) ∧
      (∀ i t, vocab[i]? = some t → freqs[i]? = some 0 → t.keep = false → (i ∈ ids ↔ ¬ ∃ alt, Resegments vocab t.value alt)) := by
  obtain ⟨alts, f1, vs, ids, hseg, _, h1, h2, h3, h4, h5, h6, h7, _, h9, h10, _⟩ := pruneVocab_spec hstd hsize h
  obtain ⟨alts', f2, hseg', halts⟩ := segmentTokens_exact R hheap hmax hsize hwf rnd vocab (fun t ht => ht)
    (VecPool.withCapacity 32) Lattice.new (.start 32)
  have heq : alts' = alts := by
    have e1 := hseg (max f1 f2) (by omega)
    have e2 := hseg' (max f1 f2) (by omega)
    rw [e1] at e2
    simpa using e2.symm
  subst heq
  have hv : ∀ i t, vocab[i]? = some t → ∃ a v, alts'[i]? = some a ∧ vs[i]? = some v ∧ ExactAlt vocab t a ∧
      judge numSamples vocab.length freqs i t a = .ok v := by
    intro i t ht
    have hlt := (List.getElem?_eq_some_iff.1 ht).1
    have ha : i < alts'.length := by rw [← halts.length_eq]; exact hlt
    have hs : i < vs.length := by omega
    exact ⟨_, _, List.getElem?_eq_getElem ha, List.getElem?_eq_getElem hs,
      forall₂_get halts ht (List.getElem?_eq_getElem ha), h2 i t _ _ ht (List.getElem?_eq_getElem ha) (List.getElem?_eq_getElem hs)⟩
  have hempty : ∀ bs, ¬ Resegments vocab bs [] := by
    rintro bs ⟨h, _⟩; simp at h
  -- a token that is removed although it occurs, or replaceable: a candidate
  have hcand : ∀ i t f a v, vocab[i]? = some t → freqs[i]? = some f → f ≠ 0 → t.keep = false →
      alts'[i]? = some a → vs[i]? = some v → ExactAlt vocab t a → judge numSamples vocab.length freqs i t a = .ok v →
      (i ∉ ids ∨ Replaceable vocab t) →
      BestAlternative vocab t.value a.2 ∧ ∃ l, lossOf numSamples vocab.length freqs i a.2 = .ok l ∧ v = .candidate l := by
    intro i t f a v hi hf hf0 hk hai hvi hex hj hor
    have hv : a.2 ≠ [] ∧ ∃ l, lossOf numSamples vocab.length freqs i a.2 = .ok l ∧ v = .candidate l := by
      rcases judge_cases hj with ⟨hk', _⟩ | ⟨_, f', hf', q | q | q | q⟩
      · rw [hk] at hk'; simp at hk'
      · rw [hf] at hf'
        simp only [Option.some.injEq] at hf'
        exact absurd (hf'.trans q.1) hf0
      · exfalso
        obtain ⟨_, q2, rfl⟩ := q
        rcases hor with hn | hr
        · exact hn (h5 i hvi)
        · rcases hex with ⟨_, _, x3⟩ | ⟨_, x2, _⟩ | ⟨_, _, alt, x3, x4⟩
          · exact x3 hr.1
          · rw [q2] at x2
            exact hempty _ x2.1
          · have := hr.2 alt x3.1
            rw [x4] at this
            simp at this
      · obtain ⟨_, q2, l, q3, _, q5⟩ := q
        exact ⟨q2, l, q3, q5⟩
      · rw [hf] at hf'
        simp only [Option.some.injEq] at hf'
        exact absurd (hf'.trans q.1) hf0
    refine ⟨?_, hv.2⟩
    rcases hex with ⟨_, x2, _⟩ | ⟨_, x2, _⟩ | ⟨_, x2, _⟩
    · exact absurd x2 hv.1
    · exact x2
    · exact absurd x2 hv.1
  refine ⟨ids, fun i => (alts'[i]?.map (·.2)).getD [], fun i => match vs[i]? with
    | some (.candidate l) => l
    | _ => zero, h3, h4, ?_, ?_, ?_, ?_⟩
  · intro hle
    refine h7 (Nat.le_trans ?_ hle)
    refine length_le_countP (List.nodup_append.1 (ids_nodup vs 0)).1 ?_
    intro i hi
    rw [mem_keepIds] at hi
    simp only [Nat.zero_le, true_and, Nat.sub_zero] at hi
    have hlt : i < vocab.length := by rw [← h1]; exact (List.getElem?_eq_some_iff.1 hi).1
    refine ⟨vocab[i], List.getElem?_eq_getElem hlt, ?_⟩
    obtain ⟨a, v, _, hvi, hex, hj⟩ := hv i _ (List.getElem?_eq_getElem hlt)
    rw [hi] at hvi
    simp only [Option.some.injEq] at hvi
    subst hvi
    rw [decide_eq_true_eq]
    rcases judge_cases hj with ⟨hk, _⟩ | ⟨_, f, _, q | q | q | q⟩
    · exact Or.inl hk
    · exact absurd q.2.2 (by simp)
    · right
      intro hr
      rcases hex with ⟨_, _, x3⟩ | ⟨_, x2, _⟩ | ⟨_, _, alt, x3, x4⟩
      · exact x3 hr.1
      · rw [q.2.1] at x2
        exact hempty _ x2.1
      · have := hr.2 alt x3.1
        rw [x4] at this
        simp at this
    · obtain ⟨_, _, l, _, _, q5⟩ := q
      simp at q5
    · exact absurd q.2.2.2 (by simp)
  · intro i t f hi hf hf0 hk hor
    obtain ⟨a, v, hai, hvi, hex, hj⟩ := hv i t hi
    obtain ⟨q1, l, q2, rfl⟩ := hcand i t f a v hi hf hf0 hk hai hvi hex hj hor
    simp only [hai, hvi, Option.map_some, Option.getD_some]
    exact ⟨q1, q2, fun hn => h9 i l hvi hn⟩
  · intro L i t f j u g hi hf hf0 hin hj hg hg0 hjn hku hru
    have hkt : t.keep = false := by
      obtain ⟨a, v, _, hvi, _, hjj⟩ := hv i t hi
      rcases judge_cases hjj with ⟨_, rfl⟩ | ⟨hk, _⟩
      · exact absurd (h5 i hvi) hin
      · exact hk
    obtain ⟨a, v, hai, hvi, hex, hjj⟩ := hv i t hi
    obtain ⟨_, l, _, rfl⟩ := hcand i t f a v hi hf hf0 hkt hai hvi hex hjj (Or.inl hin)
    obtain ⟨a', v', hai', hvi', hex', hjj'⟩ := hv j u hj
    obtain ⟨_, l', _, rfl⟩ := hcand j u g a' v' hj hg hg0 hku hai' hvi' hex' hjj' (Or.inr hru)
    simp only [hvi, hvi']
    exact h10 L j l' i l hvi' hjn hvi hin
  · intro i t hi hf hk
    obtain ⟨a, v, hai, hvi, hex, hj⟩ := hv i t hi
    have hdrop : v = .drop → i ∉ ids := by
      rintro rfl hin
      rcases h6 i hin with h | ⟨l, h⟩ <;> rw [hvi] at h <;> simp at h
    rcases judge_cases hj with ⟨hk', _⟩ | ⟨_, f', hf', q⟩
    · rw [hk] at hk'; simp at hk'
    · rw [hf] at hf'
      simp only [Option.some.injEq] at hf'
      subst hf'
      rcases q with q | q | q | q
      · refine ⟨fun hin => absurd hin (hdrop q.2.2), fun hn => ?_⟩
        rcases hex with ⟨x1, _⟩ | ⟨x1, _⟩ | ⟨_, _, alt, x3, _⟩
        · rw [q.2.1] at x1; simp at x1
        · rw [q.2.1] at x1; simp at x1
        · exact absurd ⟨alt, x3.1⟩ hn
      · obtain ⟨q1, q2, rfl⟩ := q
        have q1' : a.1 = true := by simpa using q1
        refine ⟨fun _ => ?_, fun _ => h5 i hvi⟩
        rcases hex with ⟨_, _, x3⟩ | ⟨_, x2, _⟩ | ⟨x1, _⟩
        · exact x3
        · rw [q2] at x2; exact absurd x2.1 (hempty _)
        · rw [q1'] at x1; simp at x1
      · exact absurd rfl q.1
      · refine ⟨fun hin => absurd hin (hdrop q.2.2.2), fun hn => ?_⟩
        rcases hex with ⟨_, x2, _⟩ | ⟨_, x2, _⟩ | ⟨_, x2, _⟩
        · exact absurd x2 q.2.2.1
        · exact absurd ⟨_, x2.1⟩ hn
        · exact absurd x2 q.2.2.1

end Pruner
end Tokengeex

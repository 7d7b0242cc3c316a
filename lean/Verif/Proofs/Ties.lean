import Verif.Proofs.Viterbi
import Verif.Proofs.Encode
/-
Tie-breaking: which of several best segmentations `encode` and `Lattice::viterbi` return.
-/
namespace Tokengeex
open Spec ScoreOps

variable {F : Type} [ScoreOps F]

namespace Model

/-- Every boundary of `ids` is chosen as far left as possible among the best choices. -/
inductive Leftmost (e : Nat → Nat → Option Nat) (w : Nat → F) : Nat → List Nat → Prop
  | nil : Leftmost e w 0 []
  | snoc {s i id : Nat} {ids : List Nat} : Leftmost e w s ids → e s i = some id →
      (∀ s' ids' id', Chain e s' ids' → e s' i = some id' →
        lt (sumScore w (ids ++ [id])) (sumScore w (ids' ++ [id'])) = false ∧
        (s' < s → lt (sumScore w (ids' ++ [id'])) (sumScore w (ids ++ [id])) = true)) →
      Leftmost e w i (ids ++ [id])

theorem Leftmost.chain {e : Nat → Nat → Option Nat} {w : Nat → F} {i : Nat} {ids : List Nat} (h : Leftmost e w i ids) :
    Chain e i ids := by
  induction h with
  | nil => exact .nil
  | snoc _ he _ ih => exact .snoc ih he

theorem Leftmost.unique {e : Nat → Nat → Option Nat} {w : Nat → F} (hlt : ∀ i s id, e s i = some id → s < i) {i : Nat}
    {a b : List Nat} (ha : Leftmost e w i a) (hb : Leftmost e w i b) : a = b := by
  induction ha generalizing b with
  | nil =>
    cases hb with
    | nil => rfl
    | snoc _ he _ => have := hlt _ _ _ he; omega
  | @snoc s i id ids h1 he1 hd1 ih =>
    cases hb with
    | nil => have := hlt _ _ _ he1; omega
    | @snoc s' _ id' ids' h2 he2 hd2 =>
      have hs : s = s' := by
        rcases Nat.lt_trichotomy s s' with h | h | h
        · have h3 := (hd2 s ids id h1.chain he1).2 h
          have h4 := (hd1 s' ids' id' h2.chain he2).1
          rw [h4] at h3; simp at h3
        · exact h
        · have h3 := (hd1 s' ids' id' h2.chain he2).2 h
          have h4 := (hd2 s ids id h1.chain he1).1
          rw [h4] at h3; simp at h3
      subst hs
      rw [he1] at he2
      simp only [Option.some.injEq] at he2
      rw [ih h2, he2]

/-! ## `encode` -/

/-- Entry `i`, when the positions below `p` are processed, dominates the candidates seen, strictly those that start
further left. -/
theorem pTable_first {good tok : F → Prop} (L : ScoreLaws F good tok) {m : Model F} (hm : m.WF)
    (hv : ∀ t ∈ m.vocab, tok t.score) {dropout : F} (hd : le dropout zero = true) (rnd : Nat → F)
    (input : List UInt8) (i p : Nat) :
    ∀ s' id', s' < p → m.edge input s' i = some id' → ((m.pTable dropout rnd input s').1 s').start.isSome = true →
      ((m.pTable dropout rnd input p).1 i).start.isSome = true ∧
      lt ((m.pTable dropout rnd input p).1 i).score
        (add ((m.pTable dropout rnd input s').1 s').score (scoreOf m.vocab id')) = false ∧
      ∀ s, ((m.pTable dropout rnd input p).1 i).start = some s → s' < s →
        lt (add ((m.pTable dropout rnd input s').1 s').score (scoreOf m.vocab id'))
          ((m.pTable dropout rnd input p).1 i).score = true := by
  have hg := pTable_good L hm hv dropout rnd input
  have hgc : ∀ s' id', good (add ((m.pTable dropout rnd input s').1 s').score (scoreOf m.vocab id')) :=
    fun s' id' => L.add_good (hg _ _) (good_scoreOf L hv _)
  induction p with
  | zero => intro s' id' h; omega
  | succ p ih =>
    intro s' id' hs' he' hr'
    obtain ⟨k, hk⟩ := pPos_spec hm dropout rnd input (m.pTable dropout rnd input p) p i
    rw [← pTable_succ] at hk
    by_cases hp : ((m.pTable dropout rnd input p).1 p).start.isNone = true
    · rw [if_pos hp] at hk
      have hne : s' ≠ p := by
        rintro rfl
        cases h : ((m.pTable dropout rnd input s').1 s').start <;> simp [h] at hp hr'
      rw [hk]
      exact ih s' id' (by omega) he' hr'
    · rw [if_neg hp] at hk
      cases hep : m.edge input p i with
      | none =>
        rw [hep] at hk
        have hne : s' ≠ p := by rintro rfl; rw [he'] at hep; simp at hep
        rw [hk]
        exact ih s' id' (by omega) he' hr'
      | some idp =>
        rw [hep] at hk
        simp only [dropGuard_nodrop hd] at hk
        unfold updNode at hk
        simp only [Bool.true_and] at hk
        by_cases hc : (((m.pTable dropout rnd input p).1 i).start.isNone ||
            lt ((m.pTable dropout rnd input p).1 i).score
              (add ((m.pTable dropout rnd input p).1 p).score (scoreOf m.vocab idp))) = true
        · rw [if_pos hc] at hk
          rw [hk]
          simp only [Option.isSome_some, Option.some.injEq, true_and]
          by_cases hsp : s' = p
          · subst hsp
            rw [hep] at he'
            simp only [Option.some.injEq] at he'
            subst he'
            exact ⟨L.irrefl (hgc _ _), fun s h1 h2 => by omega⟩
          · obtain ⟨h1, h2, _⟩ := ih s' id' (by omega) he' hr'
            have hlt : lt ((m.pTable dropout rnd input p).1 i).score
              (add ((m.pTable dropout rnd input p).1 p).score (scoreOf m.vocab idp)) = true := by
              rw [Bool.or_eq_true] at hc
              rcases hc with hc | hc
              · cases h : ((m.pTable dropout rnd input p).1 i).start <;> simp [h] at hc h1
              · exact hc
            have h3 := L.lt_of_le_of_lt (hg _ _) (hgc _ _) (hgc s' id') h2 hlt
            exact ⟨L.asymm (hgc _ _) (hgc _ _) h3, fun s _ _ => h3⟩
        · rw [if_neg hc] at hk
          rw [hk]
          simp only [Bool.or_eq_true, not_or, Bool.not_eq_true] at hc
          by_cases hsp : s' = p
          · subst hsp
            rw [hep] at he'
            simp only [Option.some.injEq] at he'
            subst he'
            refine ⟨?_, hc.2, ?_⟩
            · cases h : ((m.pTable dropout rnd input s').1 i).start <;> simp [h] at hc ⊢
            · intro s h1 h2
              have := ((pTable_sound hm dropout rnd input s').2 i s (by have := (edge_lt hep).1; omega) h1).1
              omega
          · exact ih s' id' (by omega) he' hr'

/-- What the backtracking loop follows. -/
inductive TChain (T : Nat → DpNode F) : Nat → List Nat → Prop
  | nil : TChain T 0 []
  | snoc {s i : Nat} {ids : List Nat} : TChain T s ids → 0 < i → (T i).start = some s → TChain T i (ids ++ [(T i).id])

omit [ScoreOps F] in
theorem backtrack_tchain [ScoreOps F] {T : Nat → DpNode F} {dp : List (DpNode F)} {n : Nat} (hl : dp.length = n + 1)
    (hdp : ∀ i, i ≤ n → tbl dp i = T i) (hT : ∀ i s, i ≤ n → (T i).start = some s → s ≤ n) :
    ∀ fuel i acc out, i ≤ n → backtrack dp n fuel i acc = .ok out → ∃ ids, out = ids ++ acc ∧ TChain T i ids := by
  intro fuel
  induction fuel with
  | zero => intro i acc out _ h; simp [backtrack] at h
  | succ fuel ih =>
    intro i acc out hi h
    unfold backtrack at h
    by_cases hpos : i > 0
    · rw [if_pos hpos, idx_of_getElem? (by rw [tbl_getElem? (by omega), hdp i hi])] at h
      simp only [res_bind_ok] at h
      cases hst : (T i).start with
      | none => rw [hst] at h; simp at h
      | some s =>
        rw [hst] at h
        obtain ⟨ids, h1, h2⟩ := ih s _ out (hT i s hi hst) h
        exact ⟨ids ++ [(T i).id], by simp [h1], .snoc h2 hpos hst⟩
    · rw [if_neg hpos] at h
      have : i = 0 := by omega
      subst this
      simp only [Except.ok.injEq] at h
      exact ⟨[], by simp [h], .nil⟩

/-- The result of `encode` without dropout has every boundary as far left as possible. -/
theorem encodeBytes_leftmost {good tok : F → Prop} (L : ScoreLaws F good tok) {m : Model F} (hm : m.WF)
    (hv : ∀ t ∈ m.vocab, tok t.score) {dropout : F} (hd : le dropout zero = true) (rnd : Nat → F)
    (input : List UInt8) {ids : List Nat} {k : Nat} (h : m.encodeBytes input dropout rnd = .ok (ids, k)) :
    Leftmost (m.edge input) (scoreOf m.vocab) input.length ids := by
  obtain ⟨s, hs, hl, ht, hk⟩ := fill_ok hm dropout rnd input
  have hF := final_table hm dropout rnd input
  have hg := pTable_good L hm hv dropout rnd input
  unfold encodeBytes at h
  rw [hs] at h
  simp only [res_bind_ok] at h
  have hstart : ∀ i s, i ≤ input.length → ((m.pTable dropout rnd input input.length).1 i).start = some s → s ≤ input.length := by
    intro i s hi hst
    rcases Nat.eq_zero_or_pos i with rfl | hpos
    · rw [hF.zero] at hst; simp only [Option.some.injEq] at hst; omega
    · have := hF.lt _ _ _ (hF.step i s hpos hst).2.1; omega
  cases hb : backtrack s.1 input.length (input.length + 1) input.length [] with
  | error e => rw [hb] at h; simp [Bind.bind, Except.bind] at h
  | ok out =>
    rw [hb] at h
    simp only [res_bind_ok, res_pure, Except.ok.injEq, Prod.mk.injEq] at h
    obtain ⟨rfl, _⟩ := h
    obtain ⟨ids, h1, h2⟩ := backtrack_tchain hl ht hstart _ _ _ _ (Nat.le_refl _) hb
    simp only [List.append_nil] at h1
    subst h1
    have key : ∀ {i : Nat} {ids : List Nat}, TChain (m.pTable dropout rnd input input.length).1 i ids → i ≤ input.length →
        Leftmost (m.edge input) (scoreOf m.vocab) i ids ∧
          sumScore (scoreOf m.vocab) ids = ((m.pTable dropout rnd input input.length).1 i).score := by
      intro i ids hc
      induction hc with
      | nil => intro _; exact ⟨.nil, by simp [sumScore, hF.zero]⟩
      | @snoc s i ids hc hpos hst ih =>
        intro hi
        obtain ⟨h3, h4, h5⟩ := hF.step i s hpos hst
        have hsi := hF.lt _ _ _ h4
        obtain ⟨h6, h7⟩ := ih (by omega)
        have hsum : sumScore (scoreOf m.vocab) (ids ++ [((m.pTable dropout rnd input input.length).1 i).id]) =
            ((m.pTable dropout rnd input input.length).1 i).score := by
          rw [sumScore_snoc, h7, h5]
        refine ⟨.snoc h6 h4 ?_, hsum⟩
        intro s' ids' id' hc' he'
        have hs'i := (edge_lt he').1
        rw [hsum, sumScore_snoc]
        have hr := chain_reach hm hd rnd input hc'
        have hdom := chain_dominated L hm hv hd rnd input hc'
        obtain ⟨_, h8, h9⟩ := pTable_first L hm hv hd rnd input i i s' id' hs'i he' hr
        have hst' := pTable_stable hm dropout rnd input (i := i) hi
        rw [hst'] at hst ⊢
        have hgs := good_sum L hv hc'
        have hgi := good_scoreOf L hv id'
        have hmono := L.add_mono (hg s' s') hgs hgi hdom
        refine ⟨L.trans (hg _ _) (L.add_good (hg _ _) hgi) (L.add_good hgs hgi) h8 hmono, ?_⟩
        intro hlt
        exact L.lt_of_le_of_lt (L.add_good (hg _ _) hgi) (hg _ _) (L.add_good hgs hgi) hmono (h9 s hst hlt)
    exact (key h2 (Nat.le_refl _)).1

end Model

/-! ## `viterbi` -/

open Model in
omit [ScoreOps F] in
theorem nodesWhere_pairwise (c : Entry F → Bool) (es : List (Entry F)) : (nodesWhere c es).Pairwise (· < ·) := by
  unfold nodesWhere
  rw [List.pairwise_filterMap]
  have : (es.zipIdx 2).Pairwise (fun a b => a.2 < b.2) := by
    have h := List.pairwise_lt_range' (s := 2) (n := es.length)
    have h2 : (es.zipIdx 2).map (·.2) = List.range' 2 es.length := by simp [List.zipIdx_map_snd]
    rw [← h2, List.pairwise_map] at h
    exact h
  refine this.imp ?_
  intro a b hab x hx y hy
  split at hx <;> split at hy <;> simp_all

/-- The entry ids along a chain of nodes. -/
theorem viterbi_leftmost {good tok : F → Prop} (L : ScoreLaws F good tok) (hstrict : ExactAdd F good tok) {m : Model F} (hm : m.WF)
    (hv : ∀ t ∈ m.vocab, tok t.score) (sentence : List UInt8)
    (hc : Connected sentence.length (lBegins sentence.length (allEntries m sentence)) (lEnds (allEntries m sentence)))
    {p : Nat} {ks : List Nat} (hp : p ≤ sentence.length)
    (h : BPath (lBegins sentence.length (allEntries m sentence)) (lEnds (allEntries m sentence))
      (lScore (allEntries m sentence)) (vFinal sentence.length (lBegins sentence.length (allEntries m sentence))
        (lEnds (allEntries m sentence)) (lScore (allEntries m sentence))) p ks) :
    ∃ path : List (Entry F), ks.map (fun k => (allEntries m sentence)[k - 2]?) = path.map some ∧
      Model.Leftmost (m.edge sentence) (scoreOf m.vocab) p (path.map (·.id)) ∧
      pathScore (lScore (allEntries m sentence)) ks = Model.sumScore (scoreOf m.vocab) (path.map (·.id)) := by
  have g := graph_lattice (inside_allEntries hm sentence)
  have hw : ∀ i, tok (lScore (allEntries m sentence) i) := by
    intro i
    unfold lScore
    split
    · exact L.zero_tok
    · exact L.zero_tok
    · split
      · rename_i e he
        rw [((mem_allEntries hm).1 (List.mem_of_getElem? he)).2]
        exact Model.good_scoreOf L hv _
      · exact L.zero_tok
  -- a chain of edges is a path of nodes
  have chain_path : ∀ {i : Nat} {ids : List Nat}, Model.Chain (m.edge sentence) i ids →
      ∃ ks', GPath (lBegins sentence.length (allEntries m sentence)) (lEnds (allEntries m sentence)) i ks' ∧
        pathScore (lScore (allEntries m sentence)) ks' = Model.sumScore (scoreOf m.vocab) ids := by
    intro i ids hch
    induction hch with
    | nil => exact ⟨[], .nil, rfl⟩
    | @snoc s i id ids _ he ih =>
      obtain ⟨ks', h1, h2⟩ := ih
      have hsi := (Model.edge_lt he).1
      have hmem : (⟨s, id, i - s, scoreOf m.vocab id⟩ : Entry F) ∈ allEntries m sentence := by
        rw [mem_allEntries hm]
        refine ⟨?_, rfl⟩
        show m.edge sentence s (s + (i - s)) = some id
        rw [show s + (i - s) = i by omega]; exact he
      obtain ⟨j, hj⟩ := List.getElem?_of_mem hmem
      refine ⟨ks' ++ [j + 2], .snoc h1 (mem_lBegins.2 (.inr ⟨j, _, rfl, hj, rfl⟩))
        (mem_lEnds.2 (.inr ⟨j, _, rfl, hj, by simp; omega⟩)), ?_⟩
      rw [pathScore_snoc, Model.sumScore_snoc, h2]
      simp [lScore, hj]
  induction h with
  | nil => exact ⟨[], rfl, .nil, rfl⟩
  | @snoc p q k r ks hks hkb hke hr hprev hval ih =>
    have hpq : p ≤ sentence.length := g.begin_le hkb
    obtain ⟨path, h1, h2, h3⟩ := ih hpq
    obtain ⟨j, e, rfl, hj, hpos⟩ : ∃ j e, k = j + 2 ∧ (allEntries m sentence)[j]? = some e ∧ e.pos = p := by
      rcases mem_lBegins.1 hkb with ⟨rfl, _⟩ | h
      · rcases mem_lEnds.1 hke with ⟨h, _⟩ | ⟨j, e, h, _⟩ <;> omega
      · exact h
    have hq : e.pos + e.len = q := by
      rcases mem_lEnds.1 hke with ⟨h, _⟩ | ⟨j', e', h, h', h''⟩
      · omega
      · have : j = j' := by omega
        subst this
        rw [hj] at h'
        simp only [Option.some.injEq] at h'
        subst h'; exact h''
    obtain ⟨hedge, hsc⟩ := (mem_allEntries hm).1 (List.mem_of_getElem? hj)
    rw [hq, hpos] at hedge
    have hsum : pathScore (lScore (allEntries m sentence)) (ks ++ [j + 2]) =
        Model.sumScore (scoreOf m.vocab) ((path ++ [e]).map (·.id)) := by
      rw [pathScore_snoc, List.map_append, List.map_cons, List.map_nil, Model.sumScore_snoc, h3]
      simp [lScore, hj, hsc]
    refine ⟨path ++ [e], by simp [h1, hj], ?_, hsum⟩
    rw [List.map_append, List.map_cons, List.map_nil] at hsum ⊢
    refine .snoc h2 hedge ?_
    intro s' ids' id' hc' he'
    rw [← hsum]
    obtain ⟨ks', h4, h5⟩ := chain_path hc'
    have hs'q := (Model.edge_lt he').1
    have hmem' : (⟨s', id', q - s', scoreOf m.vocab id'⟩ : Entry F) ∈ allEntries m sentence := by
      rw [mem_allEntries hm]
      refine ⟨?_, rfl⟩
      show m.edge sentence s' (s' + (q - s')) = some id'
      rw [show s' + (q - s') = q by omega]; exact he'
    obtain ⟨j', hj'⟩ := List.getElem?_of_mem hmem'
    have hb' := mem_lBegins (n := sentence.length).2 (.inr ⟨j', _, rfl, hj', rfl⟩)
    have he'' := (mem_lEnds (p := q)).2 (.inr ⟨j', _, rfl, hj', by simp; omega⟩)
    have hdom := vFinal_dominates L hw g hc h4 (j' + 2) hb'
    have hcand : add (pathScore (lScore (allEntries m sentence)) ks') (lScore (allEntries m sentence) (j' + 2)) =
        Model.sumScore (scoreOf m.vocab) (ids' ++ [id']) := by
      rw [Model.sumScore_snoc, h5]; simp [lScore, hj']
    rw [hcand] at hdom
    have hgb : ∀ l, good (vFinal sentence.length (lBegins sentence.length (allEntries m sentence))
        (lEnds (allEntries m sentence)) (lScore (allEntries m sentence)) l).2 := fun l => vFinal_good L hw _ _
    have hgc : good (Model.sumScore (scoreOf m.vocab) (ids' ++ [id'])) := by
      rw [Model.sumScore_snoc]
      exact L.add_good (Model.good_sum L hv hc') (Model.good_scoreOf L hv _)
    obtain ⟨a, l, b, h6, h7, h8, h9⟩ := pBest_spec L
      (bt := fun j => (vFinal sentence.length (lBegins sentence.length (allEntries m sentence))
        (lEnds (allEntries m sentence)) (lScore (allEntries m sentence)) j).2) (hw r) (lEnds (allEntries m sentence) q)
      (fun l _ => hgb l) (List.ne_nil_of_mem hke)
    have hl : l = j + 2 := by
      have := vFinal_begin (w := lScore (allEntries m sentence)) g hr
      rw [this, h7] at hprev
      simpa using hprev
    subst hl
    have hvk : (vFinal sentence.length (lBegins sentence.length (allEntries m sentence))
        (lEnds (allEntries m sentence)) (lScore (allEntries m sentence)) (j + 2)).2 =
        pathScore (lScore (allEntries m sentence)) (ks ++ [j + 2]) := by
      rw [pathScore_snoc]; exact hval
    rw [hvk] at h8 h9
    have hgk : good (pathScore (lScore (allEntries m sentence)) (ks ++ [j + 2])) := good_path L hw _
    have hbest : lt (pathScore (lScore (allEntries m sentence)) (ks ++ [j + 2]))
        (vFinal sentence.length (lBegins sentence.length (allEntries m sentence))
        (lEnds (allEntries m sentence)) (lScore (allEntries m sentence)) (j' + 2)).2 = false := by
      cases hx : lt (pathScore (lScore (allEntries m sentence)) (ks ++ [j + 2]))
        (vFinal sentence.length (lBegins sentence.length (allEntries m sentence))
        (lEnds (allEntries m sentence)) (lScore (allEntries m sentence)) (j' + 2)).2 with
      | false => rfl
      | true =>
        have := hstrict _ _ _ hgk (hgb _) (hw r) hx
        rw [h8 _ he''] at this; simp at this
    refine ⟨L.trans hgk (hgb _) hgc hbest hdom, ?_⟩
    intro hlt
    -- the other node comes earlier in the list
    have hjj : j' < j := by
      rcases Nat.lt_trichotomy j' j with hx | hx | hx
      · exact hx
      · subst hx
        rw [hj'] at hj
        simp only [Option.some.injEq] at hj
        have : s' = e.pos := by rw [← hj]
        omega
      · have hd := List.pairwise_iff_getElem.1 (entries_distinct hm sentence) j j'
          (List.getElem?_eq_some_iff.1 hj).1 (List.getElem?_eq_some_iff.1 hj').1 hx
        rw [(List.getElem?_eq_some_iff.1 hj).2, (List.getElem?_eq_some_iff.1 hj').2] at hd
        simp only at hd
        omega
    have hin : j' + 2 ∈ a := by
      rw [h6] at he''
      rcases List.mem_append.1 he'' with hx | hx
      · exact hx
      · exfalso
        rcases List.mem_cons.1 hx with hx | hx
        · omega
        · have hsorted : (lEnds (allEntries m sentence) q).Pairwise (· < ·) := by
            unfold lEnds
            have : ¬ q = 0 := by omega
            rw [if_neg this, List.nil_append]
            exact nodesWhere_pairwise _ _
          rw [h6] at hsorted
          have := (List.pairwise_cons.1 (List.pairwise_append.1 hsorted).2.1).1 _ hx
          omega
    have h10 := h9 _ hin
    have h11 : lt (vFinal sentence.length (lBegins sentence.length (allEntries m sentence))
        (lEnds (allEntries m sentence)) (lScore (allEntries m sentence)) (j' + 2)).2
        (pathScore (lScore (allEntries m sentence)) (ks ++ [j + 2])) = true := by
      cases hx : lt (vFinal sentence.length (lBegins sentence.length (allEntries m sentence))
        (lEnds (allEntries m sentence)) (lScore (allEntries m sentence)) (j' + 2)).2
        (pathScore (lScore (allEntries m sentence)) (ks ++ [j + 2])) with
      | true => rfl
      | false =>
        have := L.add_mono (hgb _) hgk (hw r) hx
        rw [this] at h10; simp at h10
    exact L.lt_of_le_of_lt (hgb _) hgk hgc hdom h11

end Tokengeex

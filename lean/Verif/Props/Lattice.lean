import Verif.Proofs.Ties
import Verif.Props.Model
/-
Properties of the lattice (C32, C33, C34, C62) and tie-breaking of `encode` (C61).
-/
namespace Tokengeex
open Spec ScoreOps

variable {F : Type} [ScoreOps F]

/-! ## C32 -/

theorem history_clean {p : VecPool} {l : Lattice F} (h : History p l) : p.Clean := by
  induction h with
  | start a => exact VecPool.clean_withCapacity a
  | put v _ ih => exact ih.put v
  | get _ ih => exact ih.get.2
  | @reinit p p' l l' sentence _ h ih =>
    obtain ⟨pool', h1, h2⟩ := from_clean l sentence ih
    rw [h1] at h
    simp only [Except.ok.injEq, Prod.mk.injEq] at h
    rw [← h.2]; exact h2
  | other _ _ ih => exact ih

/-- **C32** Whatever happened before to the lattice and to the pool, re-initialising gives the lattice of the new
sentence with no token in it (`latticeOf sentence []` mentions neither), and every vector the pool hands out is
empty. -/
theorem C32_reuse (p : VecPool) (l : Lattice F) (h : History p l) (sentence : List UInt8) :
    (∃ p', l.from_ sentence p = .ok (latticeOf sentence [], p') ∧ History p' (latticeOf sentence [] : Lattice F)) ∧
    p.get.1 = [] := by
  obtain ⟨p', h1, _⟩ := from_clean l sentence (history_clean h)
  exact ⟨⟨p', h1, h.reinit sentence h1⟩, (history_clean h).get.1⟩

/-- Non-vacuity: a lattice used for a sentence with two tokens, a dirty vector put into its pool, then reused. -/
example : ∃ (p : VecPool) (l : Lattice Int), History p l ∧ l.nodes.length = 4 ∧ p.pool.length = 3 ∧
    l ≠ latticeOf [1] [] := by
  refine ⟨(VecPool.withCapacity 2).put [5, 6], latticeOf [97, 98] [⟨0, 3, 1, -1⟩, ⟨0, 2, 2, -4⟩], ?_, by decide, by decide,
    by decide⟩
  exact .other _ (.put _ (.start 2))

/-! ## C33 -/

theorem tokenAt_iff {vocab : List (ScoredToken F)} {sentence : List UInt8} {e : Entry F} :
    e ∈ allEntries (Model.from_ vocab) sentence ↔ TokenAt vocab sentence e := by
  have hm := Model.wf_from vocab
  rw [mem_allEntries hm]
  unfold TokenAt
  constructor
  · rintro ⟨h1, h2⟩
    have hlt := Model.edge_lt h1
    have htok := Model.edge_tok h1
    rw [show e.pos + e.len - e.pos = e.len by omega] at htok
    have hl := (hm.ids _ _).1 htok
    obtain ⟨t, ht, _⟩ := hl.1
    refine ⟨by omega, hlt.2, hl, t, ht, ?_⟩
    rw [h2]
    unfold scoreOf; rw [ht]
  · rintro ⟨h1, h2, h3, t, ht, hs⟩
    constructor
    · unfold Model.edge
      rw [if_pos ⟨by omega, h2⟩, show e.pos + e.len - e.pos = e.len by omega]
      exact (hm.ids _ _).2 h3
    · unfold scoreOf
      rw [show (Model.from_ vocab).vocab[e.id]? = some t from ht]
      exact hs.symm

/-- **C33** Populating a fresh lattice never panics.  The lattice then holds tokens `es`, each placed where the
sentence has its bytes and carrying the right id, length and score, at most one per position and length.  One-byte
tokens are never missing, and without dropout no token is. -/
theorem C33_populate (vocab : List (ScoredToken F)) (sentence : List UInt8) (dropout : F) (rnd : Nat → F) :
    ∃ es k, (Model.from_ vocab).populateNodes (latticeOf sentence []) dropout rnd = .ok (latticeOf sentence es, k) ∧
      (∀ e ∈ es, TokenAt vocab sentence e) ∧
      es.Pairwise (fun a b => ¬ (a.pos = b.pos ∧ a.len = b.len)) ∧
      (∀ e, TokenAt vocab sentence e → e.len = 1 → e ∈ es) ∧
      (lt zero dropout = false → ∀ e, TokenAt vocab sentence e → e ∈ es) := by
  obtain ⟨⟨l, k⟩, h1, es, h2, h3, h4, h5⟩ := populate_spec (Model.wf_from vocab) sentence dropout rnd
  simp only at h2
  subst h2
  refine ⟨es, k, h1, ?_, ?_, ?_, ?_⟩
  · intro e he
    exact tokenAt_iff.1 (h3.subset he)
  · refine (List.Pairwise.sublist h3 (entries_distinct (Model.wf_from vocab) sentence)).imp ?_
    intro a b h; omega
  · intro e he hl
    exact h4 e (tokenAt_iff.2 he) (by omega)
  · intro hd e he
    rw [h5 hd]
    exact tokenAt_iff.2 he

/-- Non-vacuity: the tokens found in `"aba"`, without and with dropout. -/
example : (Model.from_ exVocab).populateNodes (latticeOf [97, 98, 97] []) 0 exRnd =
    .ok (latticeOf [97, 98, 97] [⟨0, 3, 1, -1⟩, ⟨0, 2, 2, -4⟩, ⟨1, 1, 1, -2⟩, ⟨2, 3, 1, -1⟩], 0) := by decide
example : (Model.from_ exVocab).populateNodes (latticeOf [97, 98, 97] []) 5 exRnd =
    .ok (latticeOf [97, 98, 97] [⟨0, 3, 1, -1⟩, ⟨1, 1, 1, -2⟩, ⟨2, 3, 1, -1⟩], 1) := by decide

/-! ## C62 -/

theorem insertAll (sentence : List UInt8) (es : List (Entry F)) (h : Inside sentence.length es) :
    es.foldlM (fun l e => Lattice.insert l e.pos e.id e.len e.score) (latticeOf sentence []) = .ok (latticeOf sentence es) := by
  obtain ⟨l, h1, h2⟩ := foldlM_inv (fun (l : Lattice F) (e : Entry F) => l.insert e.pos e.id e.len e.score)
    (fun pre l => l = latticeOf sentence pre) es [] (latticeOf sentence []) rfl
    (fun pre e l he hl => by
      subst hl
      exact ⟨_, insert_latticeOf sentence pre e (h e he).2, rfl⟩)
  rw [h1, h2]; rfl

theorem map_getElem?_nodes {sentence : List UInt8} {es : List (Entry F)} {V : Nat → Option Nat × F} :
    ∀ {ks : List Nat} {path : List (Entry F)}, ks.map (fun k => es[k - 2]?) = path.map some → (∀ k ∈ ks, 2 ≤ k) →
      (ks.map (filledNode sentence es V)).map nodeEntry = path := by
  intro ks
  induction ks with
  | nil => intro path h _; simpa using h.symm
  | cons k ks ih =>
    intro path h hk
    cases path with
    | nil => simp at h
    | cons e path =>
      simp only [List.map_cons, List.cons.injEq] at h
      have hk2 := hk k (by simp)
      obtain ⟨h1, h2, h3, h4⟩ := filledNode_entry (sentence := sentence) (V := V) h.1
      rw [show k - 2 + 2 = k by omega] at h1 h2 h3 h4
      simp only [List.map_cons]
      rw [ih h.2 (fun x hx => hk x (by simp [hx]))]
      congr 1
      simp [nodeEntry, h1, h2, h3, h4]

theorem viterbi_result {sentence : List UInt8} {es : List (Entry F)} (h : Inside sentence.length es)
    (hc : NoGaps sentence.length es) :
    ∃ l ks nodes path, (latticeOf sentence es).viterbi = .ok (l, nodes) ∧
      ks.map (fun k => es[k - 2]?) = path.map some ∧
      IsResult sentence.length nodes path ∧ PathOf sentence.length es path ∧
      BPath (lBegins sentence.length es) (lEnds es) (lScore es)
        (vFinal sentence.length (lBegins sentence.length es) (lEnds es) (lScore es)) sentence.length ks ∧
      pathScore (lScore es) ks = entriesScore path ∧
      (vFinal sentence.length (lBegins sentence.length es) (lEnds es) (lScore es) 1).2 =
        add (entriesScore path) zero := by
  obtain ⟨nodes, ks, h1, _, h3, h4⟩ := viterbi_spec h ((connected_iff h).2 hc)
  obtain ⟨path, h5, h6, h7, h8, h9⟩ := gpath_entries h3.path
  refine ⟨_, ks, _, path, h1, h5, ?_, ⟨h7, h8⟩, h3, h9, ?_⟩
  · unfold IsResult
    rw [List.map_append, List.map_append, map_getElem?_nodes h5 h6]
    obtain ⟨g1, g2, g3, g4⟩ := filledNode_eos (sentence := sentence) (es := es)
      (V := vFinal sentence.length (lBegins sentence.length es) (lEnds es) (lScore es))
    simp [nodeEntry, g1, g2, g3, g4]
  · rw [h4, h9]; rfl

/-- **C62** `viterbi` on any lattice: the lattice is re-initialised after any history, then any non-empty tokens inside
the sentence are inserted.  If no token starts at a position where none stops (and one stops at the end), the result is
a segmentation of the whole sentence by inserted tokens, followed by the end-of-sentence node, and no other segmentation
scores higher.  Otherwise the result is empty, even if a segmentation exists.  It never panics nor loops. -/
theorem C62_viterbi (good tok : F → Prop) (laws : ScoreLaws F good tok) (hz : ZeroNeutral F good)
    (p p' : VecPool) (l l₀ l₁ : Lattice F) (hist : History p l) (sentence : List UInt8) (es : List (Entry F))
    (hfrom : l.from_ sentence p = .ok (l₀, p')) (hes : Inside sentence.length es) (hgood : ∀ e ∈ es, tok e.score)
    (hins : es.foldlM (fun l e => Lattice.insert l e.pos e.id e.len e.score) l₀ = .ok l₁) :
    (NoGaps sentence.length es → ∃ l' nodes path, l₁.viterbi = .ok (l', nodes) ∧ IsResult sentence.length nodes path ∧
      PathOf sentence.length es path ∧
      ∀ other, PathOf sentence.length es other → lt (entriesScore path) (entriesScore other) = false) ∧
    (¬ NoGaps sentence.length es → ∃ l', l₁.viterbi = .ok (l', [])) := by
  have hl0 : l₀ = latticeOf sentence [] := by
    obtain ⟨_, h1, _⟩ := from_clean l sentence (history_clean hist)
    rw [hfrom] at h1
    simp only [Except.ok.injEq, Prod.mk.injEq] at h1
    exact h1.1
  subst hl0
  rw [insertAll sentence es hes] at hins
  simp only [Except.ok.injEq] at hins
  subst hins
  constructor
  · intro hc
    obtain ⟨l', ks, nodes, path, h1, _, h2, h3, _, _, h4⟩ := viterbi_result hes hc
    refine ⟨l', nodes, path, h1, h2, h3, ?_⟩
    intro other ho
    have hw : ∀ i, tok (lScore es i) := by
      intro i
      unfold lScore
      split
      · exact laws.zero_tok
      · exact laws.zero_tok
      · split
        · rename_i e he; exact hgood e (List.mem_of_getElem? he)
        · exact laws.zero_tok
    have hsum : ∀ path : List (Entry F), (∀ e ∈ path, e ∈ es) → good (entriesScore path) := by
      have : ∀ (path : List (Entry F)) (a : F), (∀ e ∈ path, e ∈ es) → good a →
          good ((path.map (·.score)).foldl add a) := by
        intro path
        induction path with
        | nil => intro a _ ha; exact ha
        | cons e path ih =>
          intro a he ha
          exact ih _ (fun x hx => he x (by simp [hx])) (laws.add_good ha (hgood e (he e (by simp))))
      exact fun path hp => this path zero hp laws.zero_good
    obtain ⟨ks', h5, _, h6⟩ := entries_gpath (n := sentence.length) other sentence.length ho.1 ho.2
    have hd := vFinal_dominates laws hw (graph_lattice hes) ((connected_iff hes).2 hc) h5 1 (graph_lattice hes).eos
    rw [h4, h6, show lScore es 1 = zero from rfl, hz _ _ (hsum _ h3.1) (hsum _ ho.1)] at hd
    exact hd
  · intro hc
    obtain ⟨nodes, h1⟩ := viterbi_gap hes (fun h => hc ((connected_iff hes).1 h))
    exact ⟨_, h1⟩

theorem int_zero : ZeroNeutral Int (fun _ => True) := fun a b _ _ => by simp [ScoreOps.lt, ScoreOps.add, ScoreOps.zero]
theorem int_exact : ExactAdd Int (fun _ => True) (fun _ => True) := fun a b c _ _ _ h => by
  simp [ScoreOps.lt, ScoreOps.add] at *; omega

/-- Non-vacuity of both cases: on `"aba"` a best path among three; on `"ab"` with tokens `"ab"` and `"b"` only, no
path although `"ab"` covers the sentence. -/
example : NoGaps 3 [(⟨0, 3, 1, -1⟩ : Entry Int), ⟨0, 2, 2, -4⟩, ⟨1, 1, 1, -2⟩, ⟨2, 3, 1, -1⟩] := by
  intro p hp
  simp at *
  omega
example : ((latticeOf [97, 98, 97] [(⟨0, 3, 1, -1⟩ : Entry Int), ⟨0, 2, 2, -4⟩, ⟨1, 1, 1, -2⟩, ⟨2, 3, 1, -1⟩]).viterbi.toOption.map
    (fun r => r.2.map nodeEntry)) = some [⟨0, 3, 1, -1⟩, ⟨1, 1, 1, -2⟩, ⟨2, 3, 1, -1⟩, ⟨3, 4294967295, 0, 0⟩] := by decide
example : ¬ NoGaps 2 [(⟨0, 0, 2, -1⟩ : Entry Int), ⟨1, 1, 1, -2⟩] := by
  intro h
  have := h 1 (.inr ⟨⟨1, 1, 1, -2⟩, by simp, rfl⟩)
  simp at this

/-! ## C61 -/

namespace Model

omit [ScoreOps F] in
theorem chain_iff_spells {vocab : List (ScoredToken F)} {input : List UInt8} {i : Nat} (hi : i ≤ input.length)
    {ids : List Nat} : Chain ((from_ vocab).edge input) i ids ↔ Spells vocab ids (input.take i) ∧ Canonical vocab ids := by
  have hm := wf_from vocab
  rw [chain_iff hm input i hi]
  constructor
  · rintro ⟨toks, h1, h2, h3⟩
    refine ⟨⟨toks, h1, h2⟩, ?_⟩
    intro j hj
    have : (fun j => vocab[j]?) j ∈ ids.map (fun j => vocab[j]?) := List.mem_map_of_mem hj
    rw [show ids.map (fun j => vocab[j]?) = toks.map some from h1] at this
    obtain ⟨t, _, ht⟩ := List.mem_map.1 this
    obtain ⟨h4, h5⟩ := h3 j t hj ht.symm
    exact ⟨t.value, h4, (hm.ids _ _).1 h5⟩
  · rintro ⟨⟨toks, h1, h2⟩, h3⟩
    refine ⟨toks, h1, h2, ?_⟩
    intro j t hj ht
    obtain ⟨v, hv, hl⟩ := h3 j hj
    obtain ⟨t', ht', hv'⟩ := hl.1
    rw [show vocab[j]? = some t from ht] at ht'
    simp only [Option.some.injEq] at ht'
    subst ht'
    subst hv'
    exact ⟨hv, (hm.ids _ _).2 hl⟩

omit [ScoreOps F] in
theorem lenOf_edge {vocab : List (ScoredToken F)} {input : List UInt8} {s i id : Nat}
    (h : (from_ vocab).edge input s i = some id) : lenOf vocab id = i - s := by
  have hlt := edge_lt h
  obtain ⟨t, ht, hv⟩ := (wf_from vocab).id_value (edge_tok h)
  unfold lenOf
  rw [show vocab[id]? = some t from ht]
  simp only [hv, List.length_take, List.length_drop]
  omega

theorem Leftmost.prefix {e : Nat → Nat → Option Nat} {w : Nat → F} {i : Nat} {ids : List Nat} (h : Leftmost e w i ids)
    (hlt : ∀ i s id, e s i = some id → s < i) :
    ∀ pre suf, ids = pre ++ suf → ∃ j, j ≤ i ∧ Leftmost e w j pre := by
  induction h with
  | nil =>
    intro pre suf h
    simp only [List.nil_eq, List.append_eq_nil_iff] at h
    exact ⟨0, Nat.le_refl _, h.1 ▸ .nil⟩
  | @snoc s i id ids h1 he hd ih =>
    intro pre suf h
    rcases List.eq_nil_or_concat suf with rfl | ⟨suf', x, rfl⟩
    · simp only [List.append_nil] at h
      exact ⟨i, Nat.le_refl _, h ▸ .snoc h1 he hd⟩
    · rw [List.concat_eq_append, ← List.append_assoc] at h
      have := List.append_inj' h rfl
      obtain ⟨j, hj, hl⟩ := ih pre suf' this.1
      exact ⟨j, by have := hlt _ _ _ he; omega, hl⟩

theorem leftmost_best {good tok : F → Prop} (laws : ScoreLaws F good tok) {vocab : List (ScoredToken F)} {input : List UInt8}
    {i : Nat} {ids : List Nat} (hi : i ≤ input.length)
    (h : Leftmost ((from_ vocab).edge input) (scoreOf vocab) i ids) : BestLongestLast vocab (input.take i) ids := by
  obtain ⟨hsp, hcan⟩ := (chain_iff_spells hi).1 h.chain
  refine ⟨hsp, hcan, ?_⟩
  intro other ho1 ho2
  have hoc := (chain_iff_spells hi).2 ⟨ho1, ho2⟩
  cases h with
  | nil =>
    cases hoc with
    | nil => exact ⟨laws.irrefl laws.zero_good, by simp⟩
    | snoc _ he => have := (edge_lt he).1; omega
  | @snoc s _ id ids h1 he hd =>
    cases hoc with
    | nil => have := (edge_lt he).1; omega
    | @snoc s' _ id' ids' h1' he' =>
      obtain ⟨h2, h3⟩ := hd s' ids' id' h1' he'
      refine ⟨h2, ?_⟩
      intro a b ha hb hlt
      simp only [List.getLast?_append, List.getLast?_singleton, Option.some_or, Option.some.injEq] at ha hb
      subst ha hb
      rw [lenOf_edge he, lenOf_edge he'] at hlt
      exact h3 (by omega)

theorem best_leftmost {vocab : List (ScoredToken F)} {input : List UInt8} :
    ∀ {i : Nat} {ids : List Nat}, i ≤ input.length → Chain ((from_ vocab).edge input) i ids →
      (∀ pre suf, ids = pre ++ suf → ∃ bs rest, input = bs ++ rest ∧ BestLongestLast vocab bs pre) →
      Leftmost ((from_ vocab).edge input) (scoreOf vocab) i ids := by
  intro i ids hi hc
  induction hc with
  | nil => intro _; exact .nil
  | @snoc s i id ids hc he ih =>
    intro h
    have hlt := edge_lt he
    refine .snoc (ih (by omega) ?_) he ?_
    · intro pre suf e
      exact h pre (suf ++ [id]) (by rw [e]; simp)
    · obtain ⟨bs, rest, hbs, hsp, hcan, hbest⟩ := h (ids ++ [id]) [] (by simp)
      obtain ⟨hsp', _⟩ := (chain_iff_spells hi).1 (Chain.snoc hc he)
      have hbs' : bs = input.take i := by
        obtain ⟨t1, e1, e2⟩ := hsp
        obtain ⟨t2, e3, e4⟩ := hsp'
        rw [e1] at e3
        have : t1 = t2 := by
          exact (List.map_inj_right (fun x y h => Option.some.inj h)).1 e3
        rw [← e2, ← e4, this]
      subst hbs'
      intro s' ids' id' hc' he'
      obtain ⟨h1, h2⟩ := (chain_iff_spells hi).1 (Chain.snoc hc' he')
      obtain ⟨h3, h4⟩ := hbest _ h1 h2
      refine ⟨h3, ?_⟩
      intro hs
      refine h4 id id' (by simp) (by simp) ?_
      have := edge_lt he'
      rw [lenOf_edge he, lenOf_edge he']
      omega

end Model

open Model in
/-- **C61** Which best segmentation `encode` returns: every initial part of the result is a best segmentation of the
bytes it spells and has the longest possible last token among the best ones; and the result is the only segmentation
of the input with that property.  Holds for floating-point scores (only the weak laws are used). -/
theorem C61_ties (good tok : F → Prop) (laws : ScoreLaws F good tok)
    (vocab : List (ScoredToken F)) (hgood : ∀ t ∈ vocab, tok t.score) (s : Str) (dropout : F) (rnd : Nat → F)
    (hd : le dropout zero = true) (ids : List Nat) (h : (from_ vocab).encode s dropout rnd = .ok ids) :
    (∀ pre suf, ids = pre ++ suf → ∃ bs rest, enc s = bs ++ rest ∧ BestLongestLast vocab bs pre) ∧
    ∀ other, Spells vocab other (enc s) → Canonical vocab other →
      (∀ pre suf, other = pre ++ suf → ∃ bs rest, enc s = bs ++ rest ∧ BestLongestLast vocab bs pre) → other = ids := by
  have hm := wf_from vocab
  obtain ⟨k, hk⟩ := encode_ok_iff.1 h
  have hl := encodeBytes_leftmost laws hm hgood hd rnd (enc s) hk
  have hlt : ∀ i s' id, (from_ vocab).edge (enc s) s' i = some id → s' < i := fun i s' id he => (edge_lt he).1
  constructor
  · intro pre suf e
    obtain ⟨j, hj, hp⟩ := hl.prefix hlt pre suf e
    exact ⟨(enc s).take j, (enc s).drop j, by simp, leftmost_best laws hj hp⟩
  · intro other h1 h2 h3
    have hc := (chain_iff_spells (vocab := vocab) (input := enc s) (Nat.le_refl _)).2 ⟨by simpa using h1, h2⟩
    exact (best_leftmost (Nat.le_refl _) hc h3).unique hlt hl

/-- Non-vacuity: three segmentations of `"abc"` tie at -2; the longest last token wins. -/
def tieVocab : List (ScoredToken Int) :=
  [⟨[97], -1, false⟩, ⟨[98, 99], -1, false⟩, ⟨[97, 98], -1, false⟩, ⟨[99], -1, false⟩, ⟨[98], 0, false⟩]
example : (Model.from_ tieVocab).encode ['a', 'b', 'c'] 0 exRnd = .ok [0, 1] := by decide
example : totalScore tieVocab [0, 1] = -2 ∧ totalScore tieVocab [2, 3] = -2 ∧ totalScore tieVocab [0, 4, 3] = -2 := by decide

/-! ## C34 -/

theorem tokens_connected {vocab : List (ScoredToken F)} {sentence : List UInt8}
    (h : ∀ p, (p = sentence.length ∨ ∃ e, TokenAt vocab sentence e ∧ e.pos = p) →
      p = 0 ∨ ∃ e, TokenAt vocab sentence e ∧ e.pos + e.len = p) :
    NoGaps sentence.length (allEntries (Model.from_ vocab) sentence) := by
  intro p hp
  have := h p (by
    rcases hp with hp | ⟨e, he, hp⟩
    · exact .inl hp
    · exact .inr ⟨e, tokenAt_iff.1 he, hp⟩)
  rcases this with h | ⟨e, he, h⟩
  · exact .inl h
  · exact .inr ⟨e, tokenAt_iff.2 he, h⟩

/-- **C34, partial** In exact arithmetic (`ExactAdd`), if no vocabulary token starts in the sentence at a position where
no vocabulary token stops, `viterbi` on the lattice populated without dropout returns exactly the tokens `encode`
returns, followed by the end-of-sentence node.  What is missing from the full claim: it is false when such a gap exists
(`C34_false`), and with rounding the two may choose different segmentations of equal rounded score
(see `C34_same_score_partial`). -/
theorem C34_same_tokens_partial (good tok : F → Prop) (laws : ScoreLaws F good tok) (hexact : ExactAdd F good tok)
    (vocab : List (ScoredToken F)) (hgood : ∀ t ∈ vocab, tok t.score) (s : Str) (d d' : F) (rnd rnd' : Nat → F)
    (hd : lt zero d = false) (hd' : le d' zero = true)
    (hgap : ∀ p, (p = (enc s).length ∨ ∃ e, TokenAt vocab (enc s) e ∧ e.pos = p) →
      p = 0 ∨ ∃ e, TokenAt vocab (enc s) e ∧ e.pos + e.len = p)
    (ids : List Nat) (h : (Model.from_ vocab).encode s d' rnd' = .ok ids) :
    ∃ l k l' nodes path, (Model.from_ vocab).populateNodes (latticeOf (enc s) []) d rnd = .ok (l, k) ∧
      l.viterbi = .ok (l', nodes) ∧ IsResult (enc s).length nodes path ∧ path.map (·.id) = ids ∧
      ∀ e ∈ path, TokenAt vocab (enc s) e := by
  have hm := Model.wf_from vocab
  obtain ⟨⟨l, k⟩, h1, es, h2, _, _, h5⟩ := populate_spec hm (enc s) d rnd
  simp only at h2
  subst h2
  rw [h5 hd] at h1
  have hins := inside_allEntries hm (enc s)
  have hng := tokens_connected hgap
  obtain ⟨l', ks, nodes, path, h6, h7, h8, h9, h10, _, _⟩ := viterbi_result hins hng
  obtain ⟨path', h11, h12, _⟩ := viterbi_leftmost laws hexact hm hgood (enc s) ((connected_iff hins).2 hng)
    (Nat.le_refl _) h10
  have hpp : path' = path := by
    rw [h7] at h11
    have := congrArg (List.filterMap id) h11
    simpa [List.filterMap_map] using this.symm
  subst hpp
  refine ⟨_, k, l', nodes, path', h1, h6, h8, ?_, fun e he => tokenAt_iff.1 (h9.1 e he)⟩
  obtain ⟨k', hk'⟩ := encode_ok_iff.1 h
  have hl := Model.encodeBytes_leftmost laws hm hgood hd' rnd' (enc s) hk'
  exact h12.unique (fun i s' id he => (Model.edge_lt he).1) hl

/-- **C34, partial** With rounding (weak laws only) and no gaps: `encode` and `viterbi` both return best segmentations,
neither scoring higher than the other. -/
theorem C34_same_score_partial (good tok : F → Prop) (laws : ScoreLaws F good tok) (hz : ZeroNeutral F good)
    (vocab : List (ScoredToken F)) (hgood : ∀ t ∈ vocab, tok t.score) (s : Str) (d d' : F) (rnd rnd' : Nat → F)
    (hd : lt zero d = false) (hd' : le d' zero = true)
    (hgap : ∀ p, (p = (enc s).length ∨ ∃ e, TokenAt vocab (enc s) e ∧ e.pos = p) →
      p = 0 ∨ ∃ e, TokenAt vocab (enc s) e ∧ e.pos + e.len = p)
    (ids : List Nat) (h : (Model.from_ vocab).encode s d' rnd' = .ok ids) :
    ∃ l k l' nodes path, (Model.from_ vocab).populateNodes (latticeOf (enc s) []) d rnd = .ok (l, k) ∧
      l.viterbi = .ok (l', nodes) ∧ IsResult (enc s).length nodes path ∧
      Spells vocab (path.map (·.id)) (enc s) ∧ Canonical vocab (path.map (·.id)) ∧
      lt (totalScore vocab (path.map (·.id))) (totalScore vocab ids) = false ∧
      lt (totalScore vocab ids) (totalScore vocab (path.map (·.id))) = false := by
  have hm := Model.wf_from vocab
  obtain ⟨⟨l, k⟩, h1, es, h2, _, _, h5⟩ := populate_spec hm (enc s) d rnd
  simp only at h2
  subst h2
  rw [h5 hd] at h1
  have hins := inside_allEntries hm (enc s)
  have hng := tokens_connected hgap
  have hge : ∀ e ∈ allEntries (Model.from_ vocab) (enc s), tok e.score := by
    intro e he
    rw [((mem_allEntries hm).1 he).2]
    exact Model.good_scoreOf laws hgood _
  obtain ⟨p', hf, _⟩ := from_clean (Lattice.new : Lattice F) (enc s) (VecPool.clean_withCapacity 0)
  obtain ⟨h6, _⟩ := C62_viterbi good tok laws hz _ _ _ _ _ (History.start 0) (enc s) _ hf hins hge (insertAll (enc s) _ hins)
  obtain ⟨l', nodes, path, h7, h8, h9, h10⟩ := h6 hng
  -- paths of the lattice and chains of edges
  have path_chain : ∀ (path : List (Entry F)) (p : Nat), (∀ e ∈ path, e ∈ allEntries (Model.from_ vocab) (enc s)) →
      Contiguous 0 path p → Model.Chain ((Model.from_ vocab).edge (enc s)) p (path.map (·.id)) ∧
        entriesScore path = totalScore vocab (path.map (·.id)) := by
    have key : ∀ (n : Nat) (path : List (Entry F)) (p : Nat), path.length = n →
        (∀ e ∈ path, e ∈ allEntries (Model.from_ vocab) (enc s)) → Contiguous 0 path p →
        Model.Chain ((Model.from_ vocab).edge (enc s)) p (path.map (·.id)) ∧
          entriesScore path = totalScore vocab (path.map (·.id)) := by
      intro n
      induction n with
      | zero =>
        intro path p hl _ hc
        have : path = [] := List.length_eq_zero_iff.1 hl
        subst this
        have : 0 = p := hc
        subst this
        exact ⟨.nil, rfl⟩
      | succ n ih =>
        intro path p hl he hc
        obtain ⟨path', e, rfl⟩ : ∃ l a, path = l ++ [a] := by
          have hne : path ≠ [] := by intro e; subst e; simp at hl
          exact ⟨path.dropLast, path.getLast hne, (List.dropLast_concat_getLast hne).symm⟩
        rw [contiguous_snoc] at hc
        obtain ⟨g1, g2⟩ := ih path' e.pos (by simpa using hl) (fun x hx => he x (by simp [hx])) hc.1
        obtain ⟨g3, g4⟩ := (mem_allEntries hm).1 (he e (by simp))
        rw [hc.2] at g3
        refine ⟨by rw [List.map_append]; exact .snoc g1 g3, ?_⟩
        rw [entriesScore_snoc, g2, List.map_append, List.map_cons, List.map_nil, Model.totalScore_eq, Model.totalScore_eq,
          Model.sumScore_snoc, g4]
        rfl
    exact fun path p => key _ path p rfl
  have chain_path : ∀ {i : Nat} {ids : List Nat}, Model.Chain ((Model.from_ vocab).edge (enc s)) i ids →
      ∃ path : List (Entry F), (∀ e ∈ path, e ∈ allEntries (Model.from_ vocab) (enc s)) ∧ Contiguous 0 path i ∧
        path.map (·.id) = ids := by
    intro i ids hch
    induction hch with
    | nil => exact ⟨[], by simp, rfl, rfl⟩
    | @snoc a i id ids _ he ih =>
      obtain ⟨path, g1, g2, g3⟩ := ih
      have hlt := (Model.edge_lt he).1
      refine ⟨path ++ [⟨a, id, i - a, scoreOf vocab id⟩], ?_, ?_, by simp [g3]⟩
      · intro e hx
        rcases List.mem_append.1 hx with hx | hx
        · exact g1 e hx
        · simp only [List.mem_singleton] at hx
          subst hx
          rw [mem_allEntries hm]
          refine ⟨?_, rfl⟩
          show Model.edge _ _ a (a + (i - a)) = _
          rw [show a + (i - a) = i by omega]; exact he
      · rw [contiguous_snoc]; exact ⟨g2, by simp; omega⟩
  obtain ⟨g1, g2⟩ := path_chain path _ h9.1 h9.2
  obtain ⟨g3, g4⟩ := (Model.chain_iff_spells (Nat.le_refl _)).1 g1
  rw [List.take_length] at g3
  refine ⟨_, k, l', nodes, path, h1, h7, h8, g3, g4, ?_, ?_⟩
  · obtain ⟨path', g5, g6, g7⟩ := chain_path (encode_chain h)
    have := h10 path' ⟨g5, g6⟩
    rwa [g2, (path_chain path' _ g5 g6).2, g7] at this
  · exact C05_encode_optimal good tok laws vocab hgood s d' rnd' hd' ids h _ g3 g4

/-- **C34** (when it holds) In exact arithmetic, for a text that `encode` accepts: `viterbi` on the lattice populated
without dropout returns the tokens `encode` returns if and only if no vocabulary token starts in the text at a position
where none stops.  Otherwise it returns nothing at all. -/
theorem C34_iff (good tok : F → Prop) (laws : ScoreLaws F good tok) (hexact : ExactAdd F good tok)
    (vocab : List (ScoredToken F)) (hgood : ∀ t ∈ vocab, tok t.score) (s : Str) (d d' : F) (rnd rnd' : Nat → F)
    (hd : lt zero d = false) (hd' : le d' zero = true)
    (ids : List Nat) (h : (Model.from_ vocab).encode s d' rnd' = .ok ids) :
    ∃ l k l' nodes, (Model.from_ vocab).populateNodes (latticeOf (enc s) []) d rnd = .ok (l, k) ∧ l.viterbi = .ok (l', nodes) ∧
      ((∃ path, IsResult (enc s).length nodes path ∧ path.map (·.id) = ids) ↔
        ∀ p, (p = (enc s).length ∨ ∃ e, TokenAt vocab (enc s) e ∧ e.pos = p) →
          p = 0 ∨ ∃ e, TokenAt vocab (enc s) e ∧ e.pos + e.len = p) ∧
      ((∃ path, IsResult (enc s).length nodes path ∧ path.map (·.id) = ids) ∨ nodes = []) := by
  classical
  by_cases hgap : ∀ p, (p = (enc s).length ∨ ∃ e, TokenAt vocab (enc s) e ∧ e.pos = p) →
      p = 0 ∨ ∃ e, TokenAt vocab (enc s) e ∧ e.pos + e.len = p
  · obtain ⟨l, k, l', nodes, path, h1, h2, h3, h4, _⟩ :=
      C34_same_tokens_partial good tok laws hexact vocab hgood s d d' rnd rnd' hd hd' hgap ids h
    exact ⟨l, k, l', nodes, h1, h2, ⟨fun _ => hgap, fun _ => ⟨path, h3, h4⟩⟩, .inl ⟨path, h3, h4⟩⟩
  · have hm := Model.wf_from vocab
    obtain ⟨⟨l, k⟩, h1, es, h2, _, _, h5⟩ := populate_spec hm (enc s) d rnd
    simp only at h2
    subst h2
    rw [h5 hd] at h1
    have hins := inside_allEntries hm (enc s)
    obtain ⟨nodes, h6⟩ := viterbi_gap hins (fun hc => hgap (by
      have hng := (connected_iff hins).1 hc
      intro p hp
      rcases hng p (hp.imp id (fun ⟨e, he, hp⟩ => ⟨e, tokenAt_iff.2 he, hp⟩)) with h | ⟨e, he, h⟩
      · exact .inl h
      · exact .inr ⟨e, tokenAt_iff.1 he, h⟩))
    refine ⟨_, k, _, [], h1, h6, ⟨?_, fun hg => absurd hg hgap⟩, .inr rfl⟩
    rintro ⟨path, hr, _⟩
    have := congrArg List.length hr
    simp at this

omit [ScoreOps F] in
/-- A sufficient condition for the absence of gaps: the vocabulary has a one-byte token for every byte of the text. -/
theorem C34_no_gaps (vocab : List (ScoredToken F)) (bs : List UInt8) (hb : BytesCovered vocab bs) :
    ∀ p, (p = bs.length ∨ ∃ e, TokenAt vocab bs e ∧ e.pos = p) → p = 0 ∨ ∃ e, TokenAt vocab bs e ∧ e.pos + e.len = p := by
  intro p hp
  rcases Nat.eq_zero_or_pos p with h | hpos
  · exact .inl h
  · right
    have hle : p ≤ bs.length := by
      rcases hp with rfl | ⟨e, he, rfl⟩
      · exact Nat.le_refl _
      · have := he.2.1; omega
    have hlt : p - 1 < bs.length := by omega
    have h1 : (bs.drop (p - 1)).take 1 = [bs[p - 1]] := by
      rw [List.drop_eq_getElem_cons hlt, List.take_succ_cons, List.take_zero]
    obtain ⟨id, hid⟩ := ((Model.wf_from vocab).isSome_iff [bs[p - 1]]).2 (hb _ (List.getElem_mem hlt))
    have hl := ((Model.wf_from vocab).ids _ _).1 hid
    obtain ⟨t, ht, _⟩ := hl.1
    refine ⟨⟨p - 1, id, 1, t.score⟩, ⟨by simp, by simp; omega, ?_, t, ht, rfl⟩, by simp; omega⟩
    simp only [h1]
    exact hl

/-- The full claim fails when a token starts where none stops: with the tokens `"ab"` and `"b"`, `encode("ab")` succeeds
and `viterbi` returns nothing. -/
theorem C34_false : ¬ ∀ (vocab : List (ScoredToken Int)) (s : Str) (ids : List Nat),
    (Model.from_ vocab).encode s 0 exRnd = .ok ids →
    ∃ l k l' nodes path, (Model.from_ vocab).populateNodes (latticeOf (enc s) []) 0 exRnd = .ok (l, k) ∧
      l.viterbi = .ok (l', nodes) ∧ IsResult (enc s).length nodes path ∧ path.map (·.id) = ids := by
  intro h
  obtain ⟨l, k, l', nodes, path, h1, h2, h3, _⟩ := h [⟨[97, 98], -1, false⟩, ⟨[98], -1, false⟩] ['a', 'b'] [0] (by decide)
  have e1 : (Model.from_ [(⟨[97, 98], -1, false⟩ : ScoredToken Int), ⟨[98], -1, false⟩]).populateNodes
      (latticeOf (enc ['a', 'b']) []) 0 exRnd = .ok (latticeOf [97, 98] [⟨0, 0, 2, -1⟩, ⟨1, 1, 1, -1⟩], 0) := by decide
  rw [e1] at h1
  simp only [Except.ok.injEq, Prod.mk.injEq] at h1
  obtain ⟨rfl, _⟩ := h1
  have e2 : (latticeOf [97, 98] [(⟨0, 0, 2, -1⟩ : Entry Int), ⟨1, 1, 1, -1⟩]).viterbi.toOption.map (·.2) = some [] := by decide
  rw [h2] at e2
  simp only [Except.toOption, Option.map_some, Option.some.injEq] at e2
  subst e2
  simp [IsResult] at h3

/-- Non-vacuity of the partial theorems. -/
example : ∃ ids, (Model.from_ exVocab).encode ['a', 'b', 'a'] 0 exRnd = .ok ids ∧ ids = [3, 1, 3] ∧
    BytesCovered exVocab (enc ['a', 'b', 'a']) := ⟨_, by decide, rfl, by unfold BytesCovered; decide⟩

end Tokengeex

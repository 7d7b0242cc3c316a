import Verif.Proofs.NBest
/-
`Lattice::nbest` on the lattice of a sentence: from nodes to tokens.
-/
namespace Tokengeex
open Spec ScoreOps Tokengeex.Lattice

variable {F : Type} [ScoreOps F]

/-! ## `viterbi` only changes `prev` and `backtrack_score` -/

/-- Same tokens, number by number. -/
def SameNodes (a b : List (LNode F)) : Prop := ∀ i : Nat, a[i]?.map nodeEntry = b[i]?.map nodeEntry

omit [ScoreOps F] in
theorem SameNodes.trans {a b c : List (LNode F)} (h : SameNodes a b) (h' : SameNodes b c) : SameNodes a c :=
  fun i => (h i).trans (h' i)

omit [ScoreOps F] in
theorem setIdx_same {nodes nodes' : List (LNode F)} {r : Nat} {x : LNode F} (h : setIdx nodes r x = .ok nodes')
    (hx : nodes[r]?.map nodeEntry = some (nodeEntry x)) : SameNodes nodes' nodes := by
  unfold setIdx at h
  by_cases hr : r < nodes.length
  · rw [if_pos hr] at h
    simp only [Except.ok.injEq] at h
    subst h
    intro i
    rw [List.getElem?_set]
    by_cases e : r = i
    · subst e; rw [if_pos rfl, if_pos hr, hx]; rfl
    · rw [if_neg e]
  · rw [if_neg hr] at h; simp at h

omit [ScoreOps F] in
theorem idx_ok {α : Type} {l : List α} {i : Nat} {x : α} (h : idx l i = .ok x) : l[i]? = some x := by
  unfold idx at h
  cases hx : l[i]? with
  | none => rw [hx] at h; simp at h
  | some y => rw [hx] at h; simp only [Except.ok.injEq] at h; rw [h]

omit [ScoreOps F] in
theorem bind_ok {α β : Type} {x : Res α} {f : α → Res β} {b : β} (h : (x >>= f) = .ok b) : ∃ a, x = .ok a ∧ f a = .ok b := by
  cases x with
  | error e => rw [res_bind_error] at h; simp at h
  | ok a => exact ⟨a, rfl, by rwa [res_bind_ok] at h⟩

theorem viterbiNodes_same : ∀ (begins ends : List Nat) (nodes : List (LNode F)) (r : List (LNode F) × Bool),
    Lattice.viterbiNodes ends begins nodes = .ok r → SameNodes r.1 nodes := by
  intro begins
  induction begins with
  | nil =>
    intro ends nodes r h
    simp only [Lattice.viterbiNodes, Except.ok.injEq] at h
    subst h; exact fun _ => rfl
  | cons b begins ih =>
    intro ends nodes r h
    unfold Lattice.viterbiNodes at h
    obtain ⟨rn, h1, h⟩ := bind_ok h
    obtain ⟨nodes1, h2, h⟩ := bind_ok h
    obtain ⟨best, h3, h⟩ := bind_ok h
    have hrn := idx_ok h1
    have s1 : SameNodes nodes1 nodes := setIdx_same h2 (by rw [hrn]; rfl)
    cases hb : best.1 with
    | none =>
      rw [hb] at h
      simp only [Except.ok.injEq] at h
      subst h; exact s1
    | some x =>
      rw [hb] at h
      simp only at h
      obtain ⟨nodes2, h4, h⟩ := bind_ok h
      have s2 : SameNodes nodes2 nodes1 := setIdx_same h4 (by rw [s1 b, hrn]; rfl)
      exact (ih _ _ _ h).trans (s2.trans s1)

theorem viterbiLoop_same (l : Lattice F) : ∀ (ps : List Nat) (nodes : List (LNode F)) (r : List (LNode F) × Bool),
    Lattice.viterbiLoop l ps nodes = .ok r → SameNodes r.1 nodes := by
  intro ps
  induction ps with
  | nil =>
    intro nodes r h
    simp only [Lattice.viterbiLoop, Except.ok.injEq] at h
    subst h; exact fun _ => rfl
  | cons p ps ih =>
    intro nodes r h
    unfold Lattice.viterbiLoop at h
    obtain ⟨_, _, h⟩ := bind_ok h
    obtain ⟨_, _, h⟩ := bind_ok h
    obtain ⟨r1, h1, h⟩ := bind_ok h
    have s1 := viterbiNodes_same _ _ _ _ h1
    by_cases hc : r1.2 = true
    · rw [if_pos hc] at h
      exact (ih _ _ h).trans s1
    · rw [if_neg hc] at h
      simp only [Except.ok.injEq] at h
      subst h; exact s1

theorem viterbi_same {l l' : Lattice F} {path : List (LNode F)} (h : l.viterbi = .ok (l', path)) :
    SameNodes l'.nodes l.nodes ∧ l'.endNodes = l.endNodes ∧ l'.bosIdx = l.bosIdx := by
  unfold Lattice.viterbi at h
  obtain ⟨r, h1, h⟩ := bind_ok h
  have s := viterbiLoop_same _ _ _ _ h1
  by_cases hc : r.2 = true
  · rw [if_pos hc] at h
    obtain ⟨_, _, h⟩ := bind_ok h
    obtain ⟨_, _, h⟩ := bind_ok h
    obtain ⟨_, _, h⟩ := bind_ok h
    simp only [res_pure, Except.ok.injEq, Prod.mk.injEq] at h
    rw [← h.1]
    exact ⟨s, rfl, rfl⟩
  · rw [if_neg hc] at h
    simp only [res_pure, Except.ok.injEq, Prod.mk.injEq] at h
    rw [← h.1]
    exact ⟨s, rfl, rfl⟩

theorem viterbi_total {sentence : List UInt8} {es : List (Entry F)} (h : Inside sentence.length es) :
    ∃ r, (latticeOf sentence es).viterbi = .ok r := by
  by_cases hc : Connected sentence.length (lBegins sentence.length es) (lEnds es)
  · obtain ⟨_, _, h1, _⟩ := viterbi_spec h hc
    exact ⟨_, h1⟩
  · obtain ⟨_, h1⟩ := viterbi_gap h hc
    exact ⟨_, h1⟩

/-! ## The graph of the lattice -/

omit [ScoreOps F] in
theorem nodesWhere_nd {c : Entry F → Bool} (es : List (Entry F)) : (nodesWhere c es).Nodup := by
  unfold nodesWhere
  have : ∀ (l : List (Entry F)) (k : Nat), ((l.zipIdx k).filterMap (fun x => if c x.1 then some x.2 else none)).Nodup ∧
      ∀ x ∈ (l.zipIdx k).filterMap (fun x => if c x.1 then some x.2 else none), k ≤ x := by
    intro l
    induction l with
    | nil => intro k; simp
    | cons e l ih =>
      intro k
      obtain ⟨h1, h2⟩ := ih (k + 1)
      rw [List.zipIdx_cons]
      by_cases hc : c e = true
      · rw [List.filterMap_cons_some (b := k) (by simp [hc])]
        refine ⟨List.nodup_cons.2 ⟨fun hk => ?_, h1⟩, ?_⟩
        · have := h2 k hk; omega
        · intro x hx
          rcases List.mem_cons.1 hx with rfl | hx
          · omega
          · have := h2 x hx; omega
      · rw [List.filterMap_cons_none (by simp [hc])]
        exact ⟨h1, fun x hx => by have := h2 x hx; omega⟩
  exact (this es 2).1

omit [ScoreOps F] in
theorem lEnds_nd (es : List (Entry F)) (p : Nat) : (lEnds es p).Nodup := by
  unfold lEnds
  by_cases h : p = 0
  · rw [if_pos h]
    refine List.nodup_cons.2 ⟨fun hk => ?_, nodesWhere_nd es⟩
    obtain ⟨j, e, h, _⟩ := mem_nodesWhere.1 hk
    omega
  · rw [if_neg h, List.nil_append]; exact nodesWhere_nd es

/-- Entries of the nodes of a lattice. -/
def entryAt (len : Nat) (es : List (Entry F)) (i : Nat) : Option (Entry F) :=
  match i with
  | 0 => some ⟨0, 4294967294, 0, zero⟩
  | 1 => some ⟨len, 4294967295, 0, zero⟩
  | j + 2 => es[j]?

theorem latticeOf_entry (sentence : List UInt8) (es : List (Entry F)) (i : Nat) :
    (latticeOf sentence es).nodes[i]?.map nodeEntry = entryAt sentence.length es i := by
  match i with
  | 0 => rfl
  | 1 => rfl
  | j + 2 =>
    simp only [latticeOf, List.getElem?_cons_succ, List.getElem?_map, entryAt, Option.map_map]
    cases es[j]? <;> rfl

theorem ngraph_lattice {sentence : List UInt8} {es : List (Entry F)} (h : Inside sentence.length es)
    (hid : ∀ e ∈ es, e.id ≠ 4294967294) {l : Lattice F} (hs : SameNodes l.nodes (latticeOf sentence es).nodes)
    (he : l.endNodes = (latticeOf sentence es).endNodes) (hb : l.bosIdx = 0) :
    NGraph l sentence.length (es.length + 2) (lBegins sentence.length es) (lEnds es)
      (fun i => l.nodes.getD i (LNode.new 0 0 0 zero)) ∧
    ∀ i, i < es.length + 2 → l.nodes[i]? = some (l.nodes.getD i (LNode.new 0 0 0 zero)) ∧
      entryAt sentence.length es i = some (nodeEntry (l.nodes.getD i (LNode.new 0 0 0 zero))) := by
  have hn : ∀ i, i < es.length + 2 → l.nodes[i]? = some (l.nodes.getD i (LNode.new 0 0 0 zero)) ∧
      entryAt sentence.length es i = some (nodeEntry (l.nodes.getD i (LNode.new 0 0 0 zero))) := by
    intro i hi
    have h1 := (hs i).trans (latticeOf_entry sentence es i)
    have h2 : (entryAt sentence.length es i).isSome := by
      match i with
      | 0 => rfl
      | 1 => rfl
      | j + 2 =>
        simp only [entryAt]
        rw [List.getElem?_eq_getElem (by omega)]; rfl
    cases hx : l.nodes[i]? with
    | none => rw [hx] at h1; simp only [Option.map_none] at h1; rw [← h1] at h2; simp at h2
    | some x =>
      rw [hx] at h1
      have : l.nodes.getD i (LNode.new 0 0 0 zero) = x := by rw [List.getD_eq_getElem?_getD, hx]; rfl
      rw [this]
      exact ⟨rfl, h1.symm⟩
  refine ⟨⟨graph_lattice h, fun i hi => (hn i hi).1, ?_, hb, by omega, ?_, ?_, lEnds_nd es⟩, hn⟩
  · intro p hp
    rw [he]; exact latticeOf_end sentence es p hp
  · intro i hi hid'
    have h0 := (hn 0 (by omega)).2
    have h1 := (hn i hi).2
    have e0 : (l.nodes.getD 0 (LNode.new 0 0 0 zero)).tokenId = 4294967294 := by
      simp only [entryAt, Option.some.injEq] at h0
      have := congrArg Entry.id h0
      exact this.symm
    rw [e0] at hid'
    match i, h1 with
    | 0, _ => rfl
    | 1, h1 =>
      exfalso
      simp only [entryAt, Option.some.injEq] at h1
      have := congrArg Entry.id h1
      simp only [nodeEntry] at this
      omega
    | j + 2, h1 =>
      exfalso
      simp only [entryAt] at h1
      exact hid _ (List.mem_of_getElem? h1) hid'
  · intro i hi hi0
    have h1 := (hn i hi).2
    match i, h1 with
    | 0, _ => exact absurd rfl hi0
    | 1, h1 =>
      simp only [entryAt, Option.some.injEq] at h1
      have := congrArg Entry.pos h1
      exact mem_lBegins.2 (.inl ⟨rfl, this.symm⟩)
    | j + 2, h1 =>
      simp only [entryAt] at h1
      exact mem_lBegins.2 (.inr ⟨j, _, rfl, h1, rfl⟩)

/-! ## Node lists and paths -/

section paths
variable {len size : Nat} {begins ends : Nat → List Nat}

theorem chain_gpath (g : Graph len size begins ends) : ∀ (ks : List Nat) (p : Nat),
    (0 :: ks).IsChain (Link begins ends) → (∀ x, (0 :: ks).getLast? = some x → x ∈ ends p) → GPath begins ends p ks := by
  intro ks
  induction ks using List.reverseRecOn with
  | nil =>
    intro p _ h
    have := g.end_inj g.bos_end (h 0 rfl)
    subst this; exact .nil
  | append_singleton ks k ih =>
    intro p hc h
    rw [← List.cons_append, List.isChain_append] at hc
    obtain ⟨h1, _, h2⟩ := hc
    obtain ⟨y, hy⟩ : ∃ y, (0 :: ks).getLast? = some y := ⟨_, List.getLast?_eq_some_getLast (by simp)⟩
    obtain ⟨q, h3, h4⟩ := h2 y hy k (by simp)
    refine .snoc (ih q h1 ?_) h4 (h k ?_)
    · intro x hx
      rw [hy] at hx
      simp only [Option.some.injEq] at hx
      subst hx; exact h3
    · rw [← List.cons_append, List.getLast?_append]; simp

theorem vkey_gpath (g : Graph len size begins ends) {ks : List Nat} (h : VKey begins ends (fkey ks)) :
    GPath begins ends len ks := by
  have h1 := h.1
  unfold fkey at h1
  rw [← List.cons_append, List.isChain_append] at h1
  refine chain_gpath g ks len h1.1 ?_
  intro x hx
  obtain ⟨p, h2, h3⟩ := h1.2.2 x hx 1 (by simp)
  rw [g.begin_inj g.eos h3]; exact h2

theorem gpath_chain (g : Graph len size begins ends) {p : Nat} {ks : List Nat} (h : GPath begins ends p ks) :
    (0 :: ks).IsChain (Link begins ends) ∧ (∀ x, (0 :: ks).getLast? = some x → x ∈ ends p) := by
  induction h with
  | nil =>
    refine ⟨List.isChain_singleton _, ?_⟩
    intro x hx
    simp only [List.getLast?_singleton, Option.some.injEq] at hx
    subst hx; exact g.bos_end
  | @snoc p q k ks _ hb he ih =>
    constructor
    · rw [← List.cons_append, List.isChain_append]
      refine ⟨ih.1, List.isChain_singleton _, ?_⟩
      intro x hx y hy
      simp only [List.head?_cons, Option.mem_def, Option.some.injEq] at hy
      subst hy
      exact ⟨p, ih.2 x hx, hb⟩
    · intro x hx
      rw [← List.cons_append, List.getLast?_append] at hx
      simp only [List.getLast?_singleton, Option.some_or, Option.some.injEq] at hx
      subst hx; exact he

theorem gpath_vkey (g : Graph len size begins ends) {ks : List Nat} (h : GPath begins ends len ks) :
    VKey begins ends (fkey ks) := by
  obtain ⟨h1, h2⟩ := gpath_chain g h
  unfold fkey
  constructor
  · rw [← List.cons_append, List.isChain_append]
    refine ⟨h1, List.isChain_singleton _, ?_⟩
    intro x hx y hy
    simp only [List.head?_cons, Option.mem_def, Option.some.injEq] at hy
    subst hy
    exact ⟨len, h2 x hx, g.eos⟩
  · rw [← List.cons_append, List.getLast?_append]; simp

end paths

omit [ScoreOps F] in
/-- Tokens determine the nodes. -/
theorem nodes_inj {es : List (Entry F)} (hnd : es.Nodup) : ∀ {ks ks' : List Nat} {path : List (Entry F)},
    ks.map (fun k => es[k - 2]?) = path.map some → ks'.map (fun k => es[k - 2]?) = path.map some →
    (∀ k ∈ ks, 2 ≤ k) → (∀ k ∈ ks', 2 ≤ k) → ks = ks' := by
  intro ks
  induction ks with
  | nil =>
    intro ks' path h h' _ _
    cases path with
    | nil => simpa using h'.symm
    | cons e path => simp at h
  | cons k ks ih =>
    intro ks' path h h' hk hk'
    cases path with
    | nil => simp at h
    | cons e path =>
      cases ks' with
      | nil => simp at h'
      | cons k' ks' =>
        simp only [List.map_cons, List.cons.injEq] at h h'
        have h1 : k - 2 = k' - 2 := by
          have := h.1.trans h'.1.symm
          have hlt := (List.getElem?_eq_some_iff.1 h.1).1
          exact (List.getElem?_inj hlt hnd).1 this
        have h2 := hk k (by simp)
        have h3 := hk' k' (by simp)
        rw [ih h.2 h'.2 (fun x hx => hk x (by simp [hx])) (fun x hx => hk' x (by simp [hx]))]
        congr 1; omega

omit [ScoreOps F] in
theorem vkey_ending {len : Nat} {es : List (Entry F)} (g : Graph len (es.length + 2) (lBegins len es) (lEnds es)) :
    ∀ (k : List Nat), VKey (lBegins len es) (lEnds es) k → k.head? ≠ some 0 →
      ∃ ts s p, k = ts ++ [1] ∧ ts.map (fun k => es[k - 2]?) = s.map some ∧ (∀ t ∈ ts, 2 ≤ t) ∧ (∀ e ∈ s, e ∈ es) ∧
        Contiguous p s len ∧ ∀ x, k.head? = some x → x ∈ lBegins len es p := by
  intro k
  induction k with
  | nil => intro h _; have := h.2; simp at this
  | cons x k ih =>
    intro h h0
    cases k with
    | nil =>
      have := h.2
      simp only [List.getLast?_singleton, Option.some.injEq] at this
      subst this
      refine ⟨[], [], len, rfl, rfl, by simp, by simp, rfl, ?_⟩
      intro x hx
      simp only [List.head?_cons, Option.some.injEq] at hx
      subst hx; exact g.eos
    | cons y k =>
      have hc := h.1
      rw [List.isChain_cons_cons] at hc
      obtain ⟨q, h1, h2⟩ := hc.1
      have hl := h.2
      rw [List.getLast?_cons_cons] at hl
      have hy0 : (y :: k).head? ≠ some 0 := by
        simp only [List.head?_cons, ne_eq, Option.some.injEq]
        intro e; subst e; exact g.bos _ h2
      obtain ⟨ts, s, p, g1, g2, g3, g4, g5, g6⟩ := ih ⟨hc.2, hl⟩ hy0
      have hpq := g.begin_inj h2 (g6 y rfl)
      subst hpq
      rcases mem_lEnds.1 h1 with ⟨rfl, _⟩ | ⟨j, e, rfl, hj, hq⟩
      · simp at h0
      · refine ⟨(j + 2) :: ts, e :: s, e.pos, by rw [g1]; rfl, ?_, ?_, ?_, ?_, ?_⟩
        · simp only [List.map_cons, g2]
          rw [show j + 2 - 2 = j by omega, hj]
        · intro t ht
          rcases List.mem_cons.1 ht with rfl | ht
          · omega
          · exact g3 t ht
        · intro a ha
          rcases List.mem_cons.1 ha with rfl | ha
          · exact List.mem_of_getElem? hj
          · exact g4 a ha
        · exact ⟨rfl, by rw [hq]; exact g5⟩
        · intro x hx
          simp only [List.head?_cons, Option.some.injEq] at hx
          subst hx
          exact mem_lBegins.2 (.inr ⟨j, e, rfl, hj, rfl⟩)

omit [ScoreOps F] in
/-- Few endings: the agenda cannot be big. -/
theorem few_endings {len : Nat} {es : List (Entry F)} (g : Graph len (es.length + 2) (lBegins len es) (lEnds es))
    (hnd : es.Nodup) {m : Nat} (hf : FewEndings len es m) (ks : List (List Nat))
    (hv : ∀ k ∈ ks, VKey (lBegins len es) (lEnds es) k) (ha : ks.Pairwise Incomp) : ks.length ≤ m := by
  classical
  obtain ⟨all, hall, hcard⟩ := hf
  let φ : List Nat → List (Entry F) := fun k => (k.filter (fun x => decide (2 ≤ x))).filterMap (fun x => es[x - 2]?)
  have hstrip : ∀ k ∈ ks, ∃ ts s p, (k = ts ++ [1] ∨ k = 0 :: (ts ++ [1])) ∧ ts.map (fun k => es[k - 2]?) = s.map some ∧
      (∀ t ∈ ts, 2 ≤ t) ∧ (∀ e ∈ s, e ∈ es) ∧ Contiguous p s len ∧ φ k = s := by
    intro k hk
    have hφ : ∀ (ts : List Nat) (s : List (Entry F)), ts.map (fun k => es[k - 2]?) = s.map some → (∀ t ∈ ts, 2 ≤ t) →
        ts.filter (fun x => decide (2 ≤ x)) = ts ∧ ts.filterMap (fun x => es[x - 2]?) = s := by
      intro ts s h1 h2
      refine ⟨List.filter_eq_self.2 (fun t ht => by simpa using h2 t ht), ?_⟩
      have : ts.filterMap (fun x => es[x - 2]?) = (ts.map (fun x => es[x - 2]?)).filterMap id := by
        rw [List.filterMap_map]; rfl
      rw [this, h1, List.filterMap_map]
      simp
    by_cases h0 : k.head? = some 0
    · cases k with
      | nil => simp at h0
      | cons x k =>
        simp only [List.head?_cons, Option.some.injEq] at h0
        subst h0
        have hvk := hv _ hk
        cases k with
        | nil => have := hvk.2; simp at this
        | cons y k =>
          have hc := hvk.1
          rw [List.isChain_cons_cons] at hc
          obtain ⟨q, h1, h2⟩ := hc.1
          have hl := hvk.2
          rw [List.getLast?_cons_cons] at hl
          obtain ⟨ts, s, p, g1, g2, g3, g4, g5, _⟩ := vkey_ending g (y :: k) ⟨hc.2, hl⟩ (by
            simp only [List.head?_cons, ne_eq, Option.some.injEq]
            intro e; subst e; exact g.bos _ h2)
          refine ⟨ts, s, p, .inr (by rw [g1]), g2, g3, g4, g5, ?_⟩
          obtain ⟨e1, e2⟩ := hφ ts s g2 g3
          show List.filterMap _ (List.filter _ (0 :: y :: k)) = _
          rw [g1]
          simp [e1, e2]
    · obtain ⟨ts, s, p, g1, g2, g3, g4, g5, _⟩ := vkey_ending g k (hv k hk) h0
      refine ⟨ts, s, p, .inl g1, g2, g3, g4, g5, ?_⟩
      obtain ⟨e1, e2⟩ := hφ ts s g2 g3
      show List.filterMap _ (List.filter _ k) = _
      rw [g1]
      simp [e1, e2]
  have hnodup : (ks.map φ).Nodup := by
    unfold List.Nodup
    rw [List.pairwise_map]
    refine List.Pairwise.imp_of_mem ?_ ha
    intro a b hka hkb hab heq
    obtain ⟨ts, s, _, g1, g2, g3, _, _, g4⟩ := hstrip a hka
    obtain ⟨ts', s', _, g1', g2', g3', _, _, g4'⟩ := hstrip b hkb
    have : s = s' := by rw [← g4, ← g4', heq]
    subst this
    have := nodes_inj hnd g2 g2' g3 g3'
    subst this
    have hsuf : (ts ++ [1]) <:+ 0 :: (ts ++ [1]) := List.suffix_cons _ _
    rcases g1 with rfl | rfl <;> rcases g1' with rfl | rfl
    · exact hab.1 (List.suffix_refl _)
    · exact hab.1 hsuf
    · exact hab.2 hsuf
    · exact hab.1 (List.suffix_refl _)
  have hsub : (ks.map φ).toFinset ⊆ all := by
    intro s hs
    rw [List.mem_toFinset, List.mem_map] at hs
    obtain ⟨k, hk, rfl⟩ := hs
    obtain ⟨ts, s, p, _, _, _, g4, g5, g6⟩ := hstrip k hk
    rw [g6]
    exact hall s g4 ⟨p, g5⟩
  have := Finset.card_le_card hsub
  rw [List.toFinset_card_of_nodup hnodup, List.length_map] at this
  omega

omit [ScoreOps F] in
theorem mapM_idx {nodes : List (LNode F)} {d : LNode F} {m : Nat} (h : ∀ i, i < m → nodes[i]? = some (nodes.getD i d)) :
    ∀ ks : List Nat, (∀ k ∈ ks, k < m) → ks.mapM (idx nodes) = .ok (ks.map (fun k => nodes.getD k d)) := by
  intro ks
  induction ks with
  | nil => intro _; rfl
  | cons k ks ih =>
    intro hk
    rw [List.mapM_cons, idx_of_getElem? (h k (hk k (by simp))), ih (fun x hx => hk x (by simp [hx]))]
    rfl

omit [ScoreOps F] in
theorem mapM_mapM_idx {nodes : List (LNode F)} {d : LNode F} {m : Nat} (h : ∀ i, i < m → nodes[i]? = some (nodes.getD i d)) :
    ∀ fs : List (List Nat), (∀ f ∈ fs, ∀ k ∈ f, k < m) →
      fs.mapM (fun ks => ks.mapM (idx nodes)) = .ok (fs.map (fun ks => ks.map (fun k => nodes.getD k d))) := by
  intro fs
  induction fs with
  | nil => intro _; rfl
  | cons f fs ih =>
    intro hf
    rw [List.mapM_cons, mapM_idx h f (hf f (by simp)), ih (fun x hx => hf x (by simp [hx]))]
    rfl

theorem GPath.lt {len size : Nat} {begins ends : Nat → List Nat} (g : Graph len size begins ends) {p : Nat} {ks : List Nat}
    (h : GPath begins ends p ks) : ∀ k ∈ ks, k < size := by
  induction h with
  | nil => simp
  | snoc _ hb _ ih =>
    intro x hx
    rcases List.mem_append.1 hx with hx | hx
    · exact ih x hx
    · simp only [List.mem_singleton] at hx
      subst hx; exact g.begin_lt hb

/-- The tokens of a result. -/
def toPath (es : List (Entry F)) (ks : List Nat) : List (Entry F) := ks.filterMap (fun k => es[k - 2]?)

theorem toPath_spec {len : Nat} {es : List (Entry F)} {p : Nat} {ks : List Nat}
    (h : GPath (lBegins len es) (lEnds es) p ks) :
    ks.map (fun k => es[k - 2]?) = (toPath es ks).map some ∧ (∀ k ∈ ks, 2 ≤ k) ∧ (∀ e ∈ toPath es ks, e ∈ es) ∧
      Contiguous 0 (toPath es ks) p ∧ pathScore (lScore es) ks = entriesScore (toPath es ks) := by
  obtain ⟨path, h1, h2, h3, h4, h5⟩ := gpath_entries h
  have : toPath es ks = path := by
    unfold toPath
    have : ks.filterMap (fun x => es[x - 2]?) = (ks.map (fun x => es[x - 2]?)).filterMap id := by
      rw [List.filterMap_map]; rfl
    rw [this, h1, List.filterMap_map]; simp
  rw [this]
  exact ⟨h1, h2, h3, h4, h5⟩

omit [ScoreOps F] in
theorem entries_of_nodes {len : Nat} {es : List (Entry F)} [ScoreOps F] {node : Nat → LNode F}
    (hn : ∀ i, i < es.length + 2 → entryAt len es i = some (nodeEntry (node i))) :
    ∀ {ks : List Nat} {path : List (Entry F)}, ks.map (fun k => es[k - 2]?) = path.map some → (∀ k ∈ ks, 2 ≤ k) →
      (ks.map node).map nodeEntry = path := by
  intro ks
  induction ks with
  | nil => intro path h _; simpa using h.symm
  | cons k ks ih =>
    intro path h hk
    cases path with
    | nil => simp at h
    | cons e path =>
      simp only [List.map_cons, List.cons.injEq] at h
      have hk2 := hk k (by simp)
      have hlt := (List.getElem?_eq_some_iff.1 h.1).1
      have h1 := hn k (by omega)
      have h2 : entryAt len es k = es[k - 2]? := by
        obtain ⟨j, rfl⟩ : ∃ j, k = j + 2 := ⟨k - 2, by omega⟩
        rfl
      rw [h2, h.1] at h1
      simp only [Option.some.injEq] at h1
      simp only [List.map_cons]
      rw [ih h.2 (fun x hx => hk x (by simp [hx])), h1]

/-! ## Exact arithmetic -/

theorem exact_laws (R : ExactArith F) : ScoreLaws F (fun _ => True) (fun _ => True) := by
  have hf : ∀ a b : F, lt a b = false ↔ R.val b ≤ R.val a := by
    intro a b
    have := R.lt a b
    cases h : lt a b with
    | true => rw [h] at this; simp at this; simp; exact this
    | false => rw [h] at this; simp at this; simp; exact this
  constructor
  case zero_good => trivial
  case zero_tok => trivial
  case add_good => intros; trivial
  all_goals intros
  all_goals simp only [hf, R.lt, R.add] at *
  all_goals linarith

theorem exact_viterbi (R : ExactArith F) {len : Nat} {es : List (Entry F)} (h : Inside len es) (hc : NoGaps len es) :
    Exact R (lScore es) (fun i => (vFinal len (lBegins len es) (lEnds es) (lScore es) i).2) (lBegins len es) (lEnds es) := by
  have g := graph_lattice h
  have hcon := (connected_iff h).2 hc
  have L := exact_laws R
  refine ⟨?_, ?_, ?_, ?_⟩
  · rw [vFinal_bos g]; exact R.zero
  · exact R.zero
  · intro p r l hr hl
    obtain ⟨a, x, b, h1, h2, h3, _⟩ := pBest_spec L
      (bt := fun j => (vFinal len (lBegins len es) (lEnds es) (lScore es) j).2) (r := lScore es r) trivial (lEnds es p)
      (fun _ _ => trivial) (List.ne_nil_of_mem hl)
    rw [vFinal_begin g hr, h2]
    have := h3 l hl
    by_contra hcon
    have h4 := (R.lt _ _).2 (lt_of_not_ge (a := R.val (add (vFinal len (lBegins len es) (lEnds es) (lScore es) x).2 (lScore es r)))
      (b := R.val (add (vFinal len (lBegins len es) (lEnds es) (lScore es) l).2 (lScore es r))) (by rw [R.add _ (lScore es r)]; exact hcon))
    rw [this] at h4; simp at h4
  · intro p r hr
    obtain ⟨l, hl, hv⟩ := vFinal_pick (w := lScore es) g hr (hcon p (g.begin_le hr) (List.ne_nil_of_mem hr))
    exact ⟨l, hl, by rw [hv, R.add]⟩

theorem sumW_score (R : ExactArith F) (w : Nat → F) (hw : R.val (w 0) = 0) (hw1 : R.val (w 1) = 0) (ks : List Nat) :
    sumW R w (fkey ks) = R.val (pathScore w ks) := by
  have : ∀ (ks : List Nat) (a : F), R.val ((ks.map w).foldl add a) = R.val a + sumW R w ks := by
    intro ks
    induction ks with
    | nil => intro a; simp [sumW]
    | cons k ks ih =>
      intro a
      simp only [List.map_cons, List.foldl_cons]
      rw [ih, sumW_cons, R.add]; ring
  unfold fkey pathScore
  rw [this, R.zero, sumW_cons, sumW_append, hw]
  simp [sumW, hw1]

end Tokengeex

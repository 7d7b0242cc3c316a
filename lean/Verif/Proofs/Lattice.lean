import Verif.Spec.Lattice
import Verif.Proofs.Encode
/-
Construction of lattices: `from`, `insert`, `populate_nodes`.
-/
namespace Tokengeex
open Spec ScoreOps

variable {F : Type}

/-! ## The pool -/

/-- Every vector in the pool is empty. -/
def VecPool.Clean (p : VecPool) : Prop := ∀ v ∈ p.pool, v = []

theorem VecPool.clean_withCapacity (a : Nat) : (VecPool.withCapacity a).Clean := by
  intro v hv
  exact List.eq_of_mem_replicate hv

theorem VecPool.Clean.put {p : VecPool} (h : p.Clean) (v : List Nat) : (p.put v).Clean := by
  intro w hw
  rcases List.mem_append.1 hw with hw | hw
  · exact h w hw
  · simpa using hw

theorem VecPool.Clean.get {p : VecPool} (h : p.Clean) : p.get.1 = [] ∧ p.get.2.Clean := by
  unfold VecPool.get
  cases hl : p.pool.getLast? with
  | none => exact ⟨rfl, h⟩
  | some v =>
    refine ⟨h v (List.mem_of_getLast? hl), ?_⟩
    intro w hw
    exact h w (List.dropLast_subset _ hw)

theorem VecPool.Clean.putAll {p : VecPool} (h : p.Clean) (l : List (List Nat)) : (l.foldl VecPool.put p).Clean := by
  induction l generalizing p with
  | nil => exact h
  | cons v l ih => exact ih (h.put v)

theorem VecPool.Clean.getMany {p : VecPool} (h : p.Clean) (n : Nat) :
    (VecPool.getMany n p).1 = List.replicate n [] ∧ (VecPool.getMany n p).2.Clean := by
  induction n generalizing p with
  | zero => exact ⟨rfl, h⟩
  | succ n ih =>
    obtain ⟨h1, h2⟩ := h.get
    obtain ⟨h3, h4⟩ := ih h2
    refine ⟨?_, h4⟩
    show p.get.1 :: (VecPool.getMany n p.get.2).1 = _
    rw [h1, h3]; rfl

/-! ## `from` and `insert` -/

theorem pushAt_range {n i x : Nat} (f : Nat → List Nat) (h : i < n) :
    pushAt ((List.range n).map f) i x = .ok ((List.range n).map (fun p => f p ++ if p = i then [x] else [])) := by
  unfold pushAt
  have h1 : ((List.range n).map f)[i]? = some (f i) := by simp [h]
  rw [idx_of_getElem? h1]
  simp only [res_bind_ok]
  unfold setIdx
  rw [if_pos (by simpa using h)]
  congr 1
  apply List.ext_getElem (by simp)
  intro j hj hj'
  rw [List.getElem_set]
  by_cases e : i = j
  · subst e; simp
  · have : j ≠ i := fun h => e h.symm
    simp [e, this]

theorem from_clean [ScoreOps F] (l : Lattice F) (sentence : List UInt8) {pool : VecPool} (h : pool.Clean) :
    ∃ pool', l.from_ sentence pool = .ok (latticeOf sentence [], pool') ∧ pool'.Clean := by
  have h0 := (h.putAll l.beginNodes).putAll l.endNodes
  obtain ⟨h1, h2⟩ := h0.getMany (sentence.length + 1)
  obtain ⟨h3, h4⟩ := h2.getMany (sentence.length + 1)
  have hrep : ∀ n, List.replicate n ([] : List Nat) = (List.range n).map (fun _ => []) := by
    intro n; simp [List.map_const']
  refine ⟨_, ?_, h4⟩
  unfold Lattice.from_
  simp only [h1, h3, hrep]
  rw [pushAt_range _ (by omega), pushAt_range _ (by omega)]
  simp only [res_bind_ok, res_pure, Except.ok.injEq, Prod.mk.injEq, and_true]
  unfold latticeOf
  congr 1 <;> simp [nodesWhere]

theorem nodesWhere_snoc (c : Entry F → Bool) (es : List (Entry F)) (e : Entry F) :
    nodesWhere c (es ++ [e]) = nodesWhere c es ++ if c e then [es.length + 2] else [] := by
  unfold nodesWhere
  rw [List.zipIdx_append, List.filterMap_append]
  congr 1
  simp only [List.zipIdx_cons, List.zipIdx_nil, List.filterMap_cons, List.filterMap_nil]
  by_cases h : c e
  · simp [h, Nat.add_comm]
  · simp [h]

theorem insert_latticeOf [ScoreOps F] (sentence : List UInt8) (es : List (Entry F)) (e : Entry F)
    (h : e.pos + e.len ≤ sentence.length) :
    (latticeOf sentence es).insert e.pos e.id e.len e.score = .ok (latticeOf sentence (es ++ [e])) := by
  unfold Lattice.insert
  simp only [latticeOf]
  rw [pushAt_range _ (by omega), pushAt_range _ (by omega)]
  simp only [res_bind_ok, res_pure, Except.ok.injEq, Lattice.mk.injEq, true_and, and_true]
  refine ⟨?_, ?_, by simp⟩
  · apply List.map_congr_left
    intro p _
    rw [nodesWhere_snoc, List.append_assoc]
    congr 2
    by_cases hp : p = e.pos
    · subst hp; simp
    · have hp' : e.pos ≠ p := fun h => hp h.symm
      simp [hp, hp']
  · apply List.map_congr_left
    intro p _
    rw [nodesWhere_snoc, List.append_assoc]
    congr 2
    by_cases hp : p = e.pos + e.len
    · subst hp; simp
    · have hp' : e.pos + e.len ≠ p := fun h => hp h.symm
      simp [hp, hp']

/-! ## `populate_nodes` -/

theorem foldlM_inv {α σ : Type} (f : σ → α → Res σ) (P : List α → σ → Prop) :
    ∀ (l pre : List α) (s : σ), P pre s →
      (∀ pre a s, a ∈ l → P pre s → ∃ s', f s a = .ok s' ∧ P (pre ++ [a]) s') →
      ∃ s', l.foldlM f s = .ok s' ∧ P (pre ++ l) s' := by
  intro l
  induction l with
  | nil => intro pre s h _; exact ⟨s, rfl, by simpa using h⟩
  | cons a l ih =>
    intro pre s h hstep
    obtain ⟨s', h1, h2⟩ := hstep pre a s (by simp) h
    obtain ⟨s'', h3, h4⟩ := ih (pre ++ [a]) s' h2 (fun pre b s hb => hstep pre b s (by simp [hb]))
    refine ⟨s'', ?_, by simpa using h4⟩
    rw [List.foldlM_cons, h1]
    exact h3

variable [ScoreOps F]

/-- The entries for one position. -/
def entriesAt (m : Model F) (sentence : List UInt8) (pos : Nat) : List (Entry F) :=
  (m.commonPrefixSearch (sentence.drop pos)).map (fun c => ⟨pos, c.1, c.2, scoreOf m.vocab c.1⟩)

/-- The entries for all positions. -/
def allEntries (m : Model F) (sentence : List UInt8) : List (Entry F) :=
  (List.range sentence.length).flatMap (entriesAt m sentence)

theorem mem_entriesAt {m : Model F} (hm : m.WF) {sentence : List UInt8} {pos : Nat} {e : Entry F} :
    e ∈ entriesAt m sentence pos ↔
      e.pos = pos ∧ m.edge sentence pos (pos + e.len) = some e.id ∧ e.score = scoreOf m.vocab e.id := by
  unfold entriesAt
  simp only [List.mem_map]
  constructor
  · rintro ⟨c, hc, rfl⟩
    exact ⟨rfl, (Model.mem_cps hm).1 hc, rfl⟩
  · rintro ⟨rfl, h, hs⟩
    refine ⟨(e.id, e.len), (Model.mem_cps hm).2 h, ?_⟩
    cases e; simp_all

theorem mem_allEntries {m : Model F} (hm : m.WF) {sentence : List UInt8} {e : Entry F} :
    e ∈ allEntries m sentence ↔
      m.edge sentence e.pos (e.pos + e.len) = some e.id ∧ e.score = scoreOf m.vocab e.id := by
  unfold allEntries
  simp only [List.mem_flatMap, List.mem_range, mem_entriesAt hm]
  constructor
  · rintro ⟨_, _, rfl, h⟩; exact h
  · rintro ⟨h, hs⟩
    have := Model.edge_lt h
    exact ⟨e.pos, by omega, rfl, h, hs⟩

theorem inside_allEntries {m : Model F} (hm : m.WF) (sentence : List UInt8) :
    Inside sentence.length (allEntries m sentence) := by
  intro e he
  have := Model.edge_lt ((mem_allEntries hm).1 he).1
  omega

/-- What `populate_nodes` has done after the entries `pre`. -/
def PopInv (sentence : List UInt8) (dropout : F) (pre : List (Entry F)) (st : Lattice F × Nat) : Prop :=
  ∃ es, st.1 = latticeOf sentence es ∧ es.Sublist pre ∧ (∀ e ∈ pre, e.len ≤ 1 → e ∈ es) ∧
    (lt zero dropout = false → es = pre)

theorem populateNode_inv {m : Model F} (hm : m.WF) (sentence : List UInt8) (dropout : F) (rnd : Nat → F) (pos : Nat)
    {pre : List (Entry F)} {st : Lattice F × Nat} (h : PopInv sentence dropout pre st) {c : Nat × Nat}
    (hc : c ∈ m.commonPrefixSearch (sentence.drop pos)) :
    ∃ st', Model.populateNode m dropout rnd pos st c = .ok st' ∧
      PopInv sentence dropout (pre ++ [⟨pos, c.1, c.2, scoreOf m.vocab c.1⟩]) st' := by
  obtain ⟨es, h1, h2, h3, h4⟩ := h
  obtain ⟨hpos, hle⟩ := Model.cps_pos hm hc
  obtain ⟨t, ht, _⟩ := hm.id_value (Model.edge_tok ((Model.mem_cps hm).1 hc))
  have hsc : scoreOf m.vocab c.1 = t.score := by unfold scoreOf; rw [ht]
  unfold Model.populateNode
  rw [idx_of_getElem? ht]
  simp only [res_bind_ok]
  by_cases hs : (Model.skipNode dropout rnd c.2 st.2).1 = true
  · rw [if_pos hs]
    refine ⟨_, rfl, es, h1, h2.trans (List.sublist_append_left _ _), ?_, ?_⟩
    · intro e he hl
      rcases List.mem_append.1 he with he | he
      · exact h3 e he hl
      · simp only [List.mem_singleton] at he
        subst he
        simp only at hl
        simp [Model.skipNode, show ¬ c.2 > 1 by omega] at hs
    · intro hd
      simp [Model.skipNode, hd] at hs
  · rw [if_neg hs, h1, ← hsc]
    have := insert_latticeOf sentence es ⟨pos, c.1, c.2, scoreOf m.vocab c.1⟩ hle
    rw [this]
    refine ⟨_, rfl, _, rfl, h2.append (List.Sublist.refl _), ?_, ?_⟩
    · intro e he hl
      rcases List.mem_append.1 he with he | he
      · exact List.mem_append_left _ (h3 e he hl)
      · exact List.mem_append_right _ he
    · intro hd; rw [h4 hd]

theorem populate_spec {m : Model F} (hm : m.WF) (sentence : List UInt8) (dropout : F) (rnd : Nat → F) :
    ∃ st, m.populateNodes (latticeOf sentence []) dropout rnd = .ok st ∧
      PopInv sentence dropout (allEntries m sentence) st := by
  unfold Model.populateNodes
  have key := foldlM_inv (fun (st : Lattice F × Nat) pos =>
      (m.commonPrefixSearch (sentence.drop pos)).foldlM (Model.populateNode m dropout rnd pos) st)
    (fun pre st => PopInv sentence dropout (pre.flatMap (entriesAt m sentence)) st)
    (List.range sentence.length) [] (latticeOf sentence [], 0)
    ⟨[], rfl, List.Sublist.refl _, by simp, fun _ => rfl⟩ ?_
  · exact key
  · intro pre pos st _ hst
    have inner := foldlM_inv (Model.populateNode m dropout rnd pos)
      (fun pre' st => PopInv sentence dropout (pre.flatMap (entriesAt m sentence) ++
        pre'.map (fun c => ⟨pos, c.1, c.2, scoreOf m.vocab c.1⟩)) st)
      (m.commonPrefixSearch (sentence.drop pos)) [] st (by simpa using hst) ?_
    · obtain ⟨s', h1, h2⟩ := inner
      refine ⟨s', h1, ?_⟩
      simpa [List.flatMap_append, entriesAt] using h2
    · intro pre' c st' hc hst'
      obtain ⟨s', h1, h2⟩ := populateNode_inv hm sentence dropout rnd pos hst' hc
      exact ⟨s', h1, by simpa using h2⟩

/-- One entry per position and length. -/
theorem entries_distinct {m : Model F} (hm : m.WF) (sentence : List UInt8) :
    (allEntries m sentence).Pairwise (fun a b => a.pos < b.pos ∨ (a.pos = b.pos ∧ a.len < b.len)) := by
  unfold allEntries
  rw [List.pairwise_flatMap]
  constructor
  · intro p _
    unfold entriesAt
    rw [Model.cps_eq hm, List.pairwise_map, List.pairwise_filterMap]
    refine List.pairwise_lt_range.imp ?_
    intro a b hab x hx y hy
    simp only [Option.map_eq_some_iff] at hx hy
    obtain ⟨_, _, rfl⟩ := hx
    obtain ⟨_, _, rfl⟩ := hy
    right
    simp; omega
  · refine List.pairwise_lt_range.imp ?_
    intro a b hab x hx y hy
    rw [mem_entriesAt hm] at hx hy
    left; omega

end Tokengeex

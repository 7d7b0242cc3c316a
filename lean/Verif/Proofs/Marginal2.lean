import Verif.Proofs.Marginal
import Verif.Proofs.Runs
/-
`populate_marginal` on the lattice of a sentence.
-/
namespace Tokengeex
open Spec

variable {n : Nat} {es : List (Entry ℝ)}

theorem lScore_entry (j : Nat) : lScore es (j + 2) = entryScore es j := by
  unfold lScore entryScore
  cases h : es[j]? <;> simp [h]
  rfl

/-- Where a node begins (node 0: the beginning of the sentence). -/
def nodePos (n : Nat) (es : List (Entry ℝ)) : Nat → Nat
  | 0 => 0
  | 1 => n
  | j + 2 => posOf es j

/-- Where a node ends. -/
def nodeEnd (n : Nat) (es : List (Entry ℝ)) : Nat → Nat
  | 0 => 0
  | 1 => n
  | j + 2 => endOf es j

theorem nodePos_begin {p r : Nat} (h : r ∈ lBegins n es p) : nodePos n es r = p := by
  rcases mem_lBegins.1 h with ⟨rfl, rfl⟩ | ⟨j, e, rfl, h1, h2⟩
  · rfl
  · show posOf es j = p
    rw [posOf_eq h1, h2]

theorem nodeEnd_end {p r : Nat} (h : r ∈ lEnds es p) : nodeEnd n es r = p := by
  rcases mem_lEnds.1 h with ⟨rfl, rfl⟩ | ⟨j, e, rfl, h1, h2⟩
  · rfl
  · show endOf es j = p
    rw [endOf_eq h1, h2]

theorem lBegins_nodup (p : Nat) : (lBegins n es p).Nodup := by
  unfold lBegins
  split
  · refine List.nodup_cons.2 ⟨fun hm => ?_, nodesWhere_nodup⟩
    obtain ⟨j, e, h, _⟩ := mem_nodesWhere.1 hm
    omega
  · rw [List.nil_append]; exact nodesWhere_nodup

theorem lEnds_nodup (p : Nat) : (lEnds es p).Nodup := by
  unfold lEnds
  split
  · refine List.nodup_cons.2 ⟨fun hm => ?_, nodesWhere_nodup⟩
    obtain ⟨j, e, h, _⟩ := mem_nodesWhere.1 hm
    omega
  · rw [List.nil_append]; exact nodesWhere_nodup

/-- The forward recursion. -/
theorem forward_sum (hi : Inside n es) (p : Nat) :
    total hi 0 p = ((lEnds es p).map (fun s => Real.exp (lScore es s) * total hi 0 (nodePos n es s))).sum := by
  unfold lEnds
  rw [List.map_append, List.sum_append, sum_nodesWhere]
  by_cases hp : p = 0
  · subst hp
    have he : entryNums es (fun e => e.pos + e.len == 0) = ∅ := by
      ext j
      simp only [mem_entryNums, beq_iff_eq, Finset.notMem_empty, iff_false, not_exists, not_and]
      intro e h1 h2
      have := (hi e (List.mem_of_getElem? h1)).1
      omega
    rw [he, total_self]
    simp [lScore, nodePos, total_self, ScoreOps.zero]
  · rw [if_neg hp, total_last hi 0 p (Ne.symm hp)]
    simp only [List.map_nil, List.sum_nil, zero_add]
    apply Finset.sum_congr rfl
    intro j _
    rw [lScore_entry]; rfl

/-- The backward recursion. -/
theorem backward_sum (hi : Inside n es) (p : Nat) :
    total hi p n = ((lBegins n es p).map (fun s => Real.exp (lScore es s) * total hi (nodeEnd n es s) n)).sum := by
  unfold lBegins
  rw [List.map_append, List.sum_append, sum_nodesWhere]
  by_cases hp : p = n
  · subst hp
    have he : entryNums es (fun e => e.pos == p) = ∅ := by
      ext j
      simp only [mem_entryNums, beq_iff_eq, Finset.notMem_empty, iff_false, not_exists, not_and]
      intro e h1 h2
      have := hi e (List.mem_of_getElem? h1)
      omega
    rw [he, total_self]
    simp [lScore, nodeEnd, total_self, ScoreOps.zero]
  · rw [if_neg hp, total_first hi p n hp]
    simp only [List.map_nil, List.sum_nil, zero_add]
    apply Finset.sum_congr rfl
    intro j _
    rw [lScore_entry]; rfl

theorem layered_forward (g : Graph n (es.length + 2) (lBegins n es) (lEnds es)) :
    ∀ (d p : Nat) (done : List Nat), (∀ q, q < p → ∀ r ∈ lBegins n es q, r ∈ done) →
      (∀ x ∈ done, ∃ q, q < p ∧ x ∈ lBegins n es q) →
      Layered 0 done ((List.range' p d).map (fun p => (lBegins n es p, lEnds es p))) := by
  intro d
  induction d with
  | zero => intro p done _ _; trivial
  | succ d ih =>
    intro p done h1 h2
    rw [List.range'_succ, List.map_cons]
    refine ⟨?_, ?_, ih (p + 1) _ ?_ ?_⟩
    · intro s hs
      rcases g.ends_from hs with ⟨h, _⟩ | ⟨q, hq, h⟩
      · exact .inl h
      · exact .inr (h1 q hq s h)
    · intro t ht
      refine ⟨fun hd => ?_, fun e => g.bos p (e ▸ ht)⟩
      obtain ⟨q, hq, hx⟩ := h2 t hd
      have := g.begin_inj ht hx
      omega
    · intro q hq r hr
      by_cases e : q = p
      · subst e; exact List.mem_append_right _ hr
      · exact List.mem_append_left _ (h1 q (by omega) r hr)
    · intro x hx
      rcases List.mem_append.1 hx with hx | hx
      · obtain ⟨q, hq, h⟩ := h2 x hx; exact ⟨q, by omega, h⟩
      · exact ⟨p, by omega, hx⟩

theorem layered_backward (hi : Inside n es) (g : Graph n (es.length + 2) (lBegins n es) (lEnds es)) :
    ∀ (m : Nat) (done : List Nat), (∀ q, m ≤ q → q ≤ n → ∀ r ∈ lEnds es q, r ∈ done) →
      (∀ x ∈ done, ∃ q, m ≤ q ∧ x ∈ lEnds es q) →
      Layered 1 done ((List.range m).reverse.map (fun p => (lEnds es p, lBegins n es p))) := by
  intro m
  induction m with
  | zero => intro done _ _; trivial
  | succ m ih =>
    intro done h1 h2
    rw [List.range_succ, List.reverse_append, List.reverse_singleton, List.singleton_append, List.map_cons]
    refine ⟨?_, ?_, ih _ ?_ ?_⟩
    · intro s hs
      by_cases e : s = 1
      · exact .inl e
      · obtain ⟨q, hq, h⟩ := g.begin_end hs e
        right
        rcases mem_lBegins.1 hs with ⟨h', _⟩ | ⟨j, x, rfl, hj, hp⟩
        · exact absurd h' e
        · have h3 := nodeEnd_end (n := n) h
          have h4 : nodeEnd n es (j + 2) = x.pos + x.len := endOf_eq hj
          have h5 := (hi x (List.mem_of_getElem? hj)).1
          exact h1 q (by omega) hq _ h
    · intro t ht
      refine ⟨fun hd => ?_, fun e => g.eos_end m (e ▸ ht)⟩
      obtain ⟨q, hq, hx⟩ := h2 t hd
      have := g.end_inj ht hx
      omega
    · intro q hq hqn r hr
      by_cases e : q = m
      · subst e; exact List.mem_append_right _ hr
      · exact List.mem_append_left _ (h1 q (by omega) hqn r hr)
    · intro x hx
      rcases List.mem_append.1 hx with hx | hx
      · obtain ⟨q, hq, h⟩ := h2 x hx; exact ⟨q, by omega, h⟩
      · exact ⟨m, by omega, hx⟩

theorem flatMap_length_le {f : Nat → List Nat} {size : Nat} (hnd : ∀ p, (f p).Nodup) (hlt : ∀ p, ∀ x ∈ f p, x < size)
    (hinj : ∀ p q x, x ∈ f p → x ∈ f q → p = q) {ps : List Nat} (hps : ps.Nodup) : (ps.flatMap f).length ≤ size := by
  have h1 : (ps.flatMap f).Nodup := by
    rw [List.nodup_flatMap]
    refine ⟨fun p _ => hnd p, ?_⟩
    refine hps.imp ?_
    intro p q hpq
    rw [Function.onFun, List.disjoint_left]
    intro x hp hq
    exact hpq (hinj p q x hp hq)
  have h2 : ps.flatMap f ⊆ List.range size := by
    intro x hx
    obtain ⟨p, _, hp⟩ := List.mem_flatMap.1 hx
    exact List.mem_range.2 (hlt p x hp)
  have := (List.subperm_of_subset h1 h2).length_le
  simpa using this

theorem holds_zero (size : Nat) : Holds (List.replicate size (0 : ℝ)) size (fun _ => 0) :=
  ⟨by simp, fun i hi => by simp [hi]⟩

/-- The forward table. -/
theorem forwardTable_spec {sentence : List UInt8} (hi : Inside sentence.length es) (hg : NoGaps sentence.length es) :
    ∃ alpha T, (latticeOf sentence es).forwardTable = .ok alpha ∧ Holds alpha (es.length + 2) T ∧
      ∀ p, p ≤ sentence.length → ∀ r ∈ lBegins sentence.length es p,
        total hi 0 p / errPow (es.length + 2) ≤ Real.exp (T r) ∧ Real.exp (T r) ≤ total hi 0 p := by
  have g := graph_lattice hi
  have hconn := (connected_iff hi).2 hg
  have htot : ∀ i, 0 ≤ total hi 0 (nodePos sentence.length es i) :=
    fun i => Finset.sum_nonneg (fun js _ => (weight_pos js).le)
  obtain ⟨alpha, T, h1, h2, _, h4⟩ := levels_eq (size := es.length + 2) (nodes := (latticeOf sentence es).nodes) (w := lScore es)
    (fun i hil => by
      have : i < (latticeOf sentence es).nodes.length := by rw [latticeOf_nodes_length]; exact hil
      exact ⟨_, List.getElem?_eq_getElem this, (latticeOf_score sentence es i _ (List.getElem?_eq_getElem this)).1⟩)
    (base := 0) (by omega) (X := fun i => total hi 0 (nodePos sentence.length es i)) htot (total_self hi 0)
    ((List.range (sentence.length + 1)).map (fun p => (lBegins sentence.length es p, lEnds es p))) [] 0
    (List.replicate (es.length + 2) 0) (fun _ => 0)
    (by
      intro lv hlv
      obtain ⟨p, hp, rfl⟩ := List.mem_map.1 hlv
      rw [List.mem_range] at hp
      refine ⟨lEnds_nodup p, fun s hs => g.end_lt hs, fun t ht => g.begin_lt ht, hconn p (by omega), ?_⟩
      intro t ht
      simp only
      rw [nodePos_begin ht]
      exact forward_sum hi p)
    (by rw [List.range_eq_range']; exact layered_forward g _ 0 [] (by intro q hq; omega) (by simp))
    (holds_zero _) rfl (by simp)
  refine ⟨alpha, T, ?_, h2, ?_⟩
  · unfold Lattice.forwardTable
    rw [latticeOf_nodes_length, ← h1, List.foldlM_map]
    show List.foldlM _ _ (List.range (sentence.length + 1)) = _
    have : ∀ (ps : List Nat) (table : List ℝ), (∀ p ∈ ps, p ≤ sentence.length) →
        ps.foldlM (fun table pos => do
          let b ← idx (latticeOf sentence es).beginNodes pos
          let e ← idx (latticeOf sentence es).endNodes pos
          Lattice.accPos (latticeOf sentence es).nodes b e table) table =
        ps.foldlM (fun x y => Lattice.accPos (latticeOf sentence es).nodes (lBegins sentence.length es y) (lEnds es y) x) table := by
      intro ps
      induction ps with
      | nil => intro _ _; rfl
      | cons p ps ih =>
        intro table hps
        rw [List.foldlM_cons, List.foldlM_cons, idx_of_getElem? (latticeOf_begin sentence es p (hps p (by simp))),
          idx_of_getElem? (latticeOf_end sentence es p (hps p (by simp)))]
        simp only [res_bind_ok]
        congr 1
        funext t
        exact ih t (fun q hq => hps q (by simp [hq]))
    exact this _ _ (fun p hp => by rw [List.mem_range] at hp; omega)
  · intro p hp r hr
    obtain ⟨h5, h6⟩ := h4 r (by
      simp only [List.nil_append, List.mem_flatMap]
      exact ⟨_, List.mem_map.2 ⟨p, List.mem_range.2 (by omega), rfl⟩, hr⟩)
    simp only [nodePos_begin hr] at h5 h6
    refine ⟨le_trans ?_ h5, h6⟩
    have hlen : (List.flatMap (fun x => x.2) ((List.range (sentence.length + 1)).map (fun p => (lBegins sentence.length es p, lEnds es p)))).length ≤ es.length + 2 := by
      rw [List.flatMap_map]
      exact flatMap_length_le lEnds_nodup (fun p x hx => g.end_lt hx) (fun p q x h1 h2 => g.end_inj h1 h2) List.nodup_range
    have hnn : 0 ≤ total hi 0 p := Finset.sum_nonneg (fun js _ => (weight_pos js).le)
    exact div_le_div_of_nonneg_left hnn (errPow_pos _) (errPow_mono (by omega))

/-- The backward table. -/
theorem backwardTable_spec {sentence : List UInt8} (hi : Inside sentence.length es) (hd : NoDeadEnds sentence.length es) :
    ∃ beta T, (latticeOf sentence es).backwardTable = .ok beta ∧ Holds beta (es.length + 2) T ∧
      ∀ p, p ≤ sentence.length → ∀ r ∈ lEnds es p,
        total hi p sentence.length / errPow (es.length + 2) ≤ Real.exp (T r) ∧ Real.exp (T r) ≤ total hi p sentence.length := by
  have g := graph_lattice hi
  have hconn : ∀ p, lEnds es p ≠ [] → lBegins sentence.length es p ≠ [] := by
    intro p hp
    have := hd p (by
      obtain ⟨r, hr⟩ := List.exists_mem_of_ne_nil _ hp
      rcases mem_lEnds.1 hr with ⟨_, h⟩ | ⟨j, e, _, h1, h2⟩
      · exact .inl h
      · exact .inr ⟨e, List.mem_of_getElem? h1, h2⟩)
    rcases this with h | ⟨e, he, h⟩
    · exact List.ne_nil_of_mem (mem_lBegins.2 (.inl ⟨rfl, h⟩))
    · obtain ⟨j, hj⟩ := List.getElem?_of_mem he
      exact List.ne_nil_of_mem (mem_lBegins.2 (.inr ⟨j, e, rfl, hj, h⟩))
  have htot : ∀ i, 0 ≤ total hi (nodeEnd sentence.length es i) sentence.length :=
    fun i => Finset.sum_nonneg (fun js _ => (weight_pos js).le)
  obtain ⟨beta, T, h1, h2, _, h4⟩ := levels_eq (size := es.length + 2) (nodes := (latticeOf sentence es).nodes) (w := lScore es)
    (fun i hil => by
      have : i < (latticeOf sentence es).nodes.length := by rw [latticeOf_nodes_length]; exact hil
      exact ⟨_, List.getElem?_eq_getElem this, (latticeOf_score sentence es i _ (List.getElem?_eq_getElem this)).1⟩)
    (base := 1) (by omega) (X := fun i => total hi (nodeEnd sentence.length es i) sentence.length) htot (total_self hi _)
    ((List.range (sentence.length + 1)).reverse.map (fun p => (lEnds es p, lBegins sentence.length es p))) [] 0
    (List.replicate (es.length + 2) 0) (fun _ => 0)
    (by
      intro lv hlv
      obtain ⟨p, hp, rfl⟩ := List.mem_map.1 hlv
      rw [List.mem_reverse, List.mem_range] at hp
      refine ⟨lBegins_nodup p, fun s hs => g.begin_lt hs, fun t ht => g.end_lt ht, hconn p, ?_⟩
      intro t ht
      simp only
      rw [nodeEnd_end ht]
      exact backward_sum hi p)
    (layered_backward hi g _ [] (by intro q hq hqn; omega) (by simp))
    (holds_zero _) rfl (by simp)
  refine ⟨beta, T, ?_, h2, ?_⟩
  · unfold Lattice.backwardTable
    rw [latticeOf_nodes_length, ← h1, List.foldlM_map]
    show List.foldlM _ _ (List.range (sentence.length + 1)).reverse = _
    have : ∀ (ps : List Nat) (table : List ℝ), (∀ p ∈ ps, p ≤ sentence.length) →
        ps.foldlM (fun table pos => do
          let b ← idx (latticeOf sentence es).beginNodes pos
          let e ← idx (latticeOf sentence es).endNodes pos
          Lattice.accPos (latticeOf sentence es).nodes e b table) table =
        ps.foldlM (fun x y => Lattice.accPos (latticeOf sentence es).nodes (lEnds es y) (lBegins sentence.length es y) x) table := by
      intro ps
      induction ps with
      | nil => intro _ _; rfl
      | cons p ps ih =>
        intro table hps
        rw [List.foldlM_cons, List.foldlM_cons, idx_of_getElem? (latticeOf_begin sentence es p (hps p (by simp))),
          idx_of_getElem? (latticeOf_end sentence es p (hps p (by simp)))]
        simp only [res_bind_ok]
        congr 1
        funext t
        exact ih t (fun q hq => hps q (by simp [hq]))
    exact this _ _ (fun p hp => by rw [List.mem_reverse, List.mem_range] at hp; omega)
  · intro p hp r hr
    obtain ⟨h5, h6⟩ := h4 r (by
      simp only [List.nil_append, List.mem_flatMap]
      exact ⟨_, List.mem_map.2 ⟨p, List.mem_reverse.2 (List.mem_range.2 (by omega)), rfl⟩, hr⟩)
    simp only [nodeEnd_end hr] at h5 h6
    refine ⟨le_trans ?_ h5, h6⟩
    have hlen : (List.flatMap (fun x => x.2) ((List.range (sentence.length + 1)).reverse.map (fun p => (lEnds es p, lBegins sentence.length es p)))).length ≤ es.length + 2 := by
      rw [List.flatMap_map]
      exact flatMap_length_le lBegins_nodup (fun p x hx => g.begin_lt hx) (fun p q x h1 h2 => g.begin_inj h1 h2)
        (List.nodup_reverse.2 List.nodup_range)
    have hnn : 0 ≤ total hi p sentence.length := Finset.sum_nonneg (fun js _ => (weight_pos js).le)
    exact div_le_div_of_nonneg_left hnn (errPow_pos _) (errPow_mono (by omega))

/-! ## Updating `expected` -/

/-- Identifier of the token number `j`. -/
def idOf (es : List (Entry ℝ)) (j : Nat) : Nat := (es[j]?.map (·.id)).getD 0

theorem addMarginals_eq {sentence : List UInt8} {alpha beta : List ℝ} {A B : Nat → ℝ} (z : ℝ)
    (ha : Holds alpha (es.length + 2) A) (hb : Holds beta (es.length + 2) B) {m : Nat} (hid : ∀ e ∈ es, e.id < m) :
    ∀ (ks : List Nat) (expected : List ℝ) (E : Nat → ℝ), (∀ k ∈ ks, ∃ j e, k = j + 2 ∧ es[j]? = some e) → Holds expected m E →
      ∃ expected' E', ks.foldlM (Lattice.addMarginal (latticeOf sentence es).nodes alpha beta z) expected = .ok expected' ∧
        Holds expected' m E' ∧ ∀ i, E' i = E i +
          (ks.map (fun k => if idOf es (k - 2) = i then Real.exp (A k + lScore es k + B k - z) else 0)).sum := by
  intro ks
  induction ks with
  | nil => intro expected E _ h; exact ⟨expected, E, rfl, h, by simp⟩
  | cons k ks ih =>
    intro expected E hk h
    obtain ⟨j, e, rfl, hj⟩ := hk k (by simp)
    have hjl := (List.getElem?_eq_some_iff.1 hj).1
    have hnode : (latticeOf sentence es).nodes[j + 2]? = some (LNode.new e.pos e.id e.len e.score) := by simp [latticeOf, hj]
    have hidm := hid e (List.mem_of_getElem? hj)
    obtain ⟨expected₁, h1, h2⟩ := h.set hidm (ScoreOps.add (E e.id)
      (RealOps.exp (RealOps.sub (ScoreOps.add (ScoreOps.add (A (j + 2)) e.score) (B (j + 2))) z)))
    have hstep : Lattice.addMarginal (latticeOf sentence es).nodes alpha beta z expected (j + 2) = .ok expected₁ := by
      unfold Lattice.addMarginal
      rw [idx_of_getElem? hnode, ha.get (by omega), hb.get (by omega)]
      simp only [res_bind_ok]
      rw [show (LNode.new e.pos e.id e.len e.score).tokenId = e.id from rfl, h.get hidm]
      simp only [res_bind_ok]
      exact h1
    obtain ⟨expected₂, E₂, h3, h4, h5⟩ := ih expected₁ _ (fun k' hk' => hk k' (by simp [hk'])) h2
    refine ⟨expected₂, E₂, ?_, h4, ?_⟩
    · rw [List.foldlM_cons, hstep]; exact h3
    · intro i
      rw [h5 i, List.map_cons, List.sum_cons]
      have e1 : idOf es (j + 2 - 2) = e.id := by simp [idOf, hj]
      have e2 : lScore es (j + 2) = e.score := by simp [lScore, hj]
      rw [e1, e2]
      by_cases hi : e.id = i
      · subst hi
        rw [Function.update_self, if_pos rfl]
        simp only [ScoreOps.add, RealOps.exp, RealOps.sub]
        ring
      · rw [Function.update_of_ne (Ne.symm hi), if_neg hi]; ring

theorem foldlM_flatMap' {α β σ : Type} (f : σ → β → Res σ) (g : α → List β) (l : List α) (s : σ) :
    (l.flatMap g).foldlM f s = l.foldlM (fun s a => (g a).foldlM f s) s := by
  induction l generalizing s with
  | nil => rfl
  | cons a l ih =>
    rw [List.flatMap_cons, List.foldlM_append, List.foldlM_cons]
    congr 1
    funext t
    exact ih t

theorem sum_flatMap_begins (hi : Inside n es) (g : Nat → ℝ) :
    (((List.range n).flatMap (lBegins n es)).map g).sum = ∑ j ∈ Finset.range es.length, g (j + 2) := by
  rw [List.map_flatMap]
  have h1 : ∀ ps : List Nat, (ps.flatMap (fun p => (lBegins n es p).map g)).sum = (ps.map (fun p => ((lBegins n es p).map g).sum)).sum := by
    intro ps
    induction ps with
    | nil => rfl
    | cons p ps ih => rw [List.flatMap_cons, List.sum_append, ih, List.map_cons, List.sum_cons]
  rw [h1, ← List.sum_toFinset _ List.nodup_range, List.toFinset_range]
  have h2 : ∀ p ∈ Finset.range n, ((lBegins n es p).map g).sum = ∑ j ∈ (Finset.range es.length).filter (fun j => posOf es j = p), g (j + 2) := by
    intro p hp
    rw [Finset.mem_range] at hp
    unfold lBegins
    rw [if_neg (by omega), List.nil_append, sum_nodesWhere]
    apply Finset.sum_congr _ (fun _ _ => rfl)
    ext j
    rw [mem_entryNums, Finset.mem_filter, Finset.mem_range]
    constructor
    · rintro ⟨e, h1, h2⟩
      exact ⟨(List.getElem?_eq_some_iff.1 h1).1, by rw [posOf_eq h1]; simpa using h2⟩
    · rintro ⟨h1, h2⟩
      have := List.getElem?_eq_getElem h1
      exact ⟨_, this, by rw [posOf_eq this] at h2; simpa using h2⟩
  rw [Finset.sum_congr rfl h2]
  exact Finset.sum_fiberwise_of_maps_to (fun j hj => by
    rw [Finset.mem_range] at hj ⊢
    have := List.getElem?_eq_getElem hj
    rw [posOf_eq this]
    have := hi _ (List.mem_of_getElem? this)
    omega) _

end Tokengeex

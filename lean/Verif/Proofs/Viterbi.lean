import Verif.Proofs.Lattice
/-
`Lattice::viterbi`: what the table holds after the forward pass and what the backtracking returns.
-/
namespace Tokengeex
open Spec ScoreOps

variable {F : Type} [ScoreOps F]

/-! ## The forward pass as pure functions -/

/-- The loop over the nodes that end at a position: first maximum of `bt l + r`. -/
def pBest (bt : Nat → F) (r : F) (ends : List Nat) (st : Option Nat × F) : Option Nat × F :=
  ends.foldl (fun st l => if st.1.isNone || lt st.2 (add (bt l) r) then (some l, add (bt l) r) else st) st

/-- The table (`prev`, `backtrack_score`) after the positions `< p`. -/
def vTable (begins ends : Nat → List Nat) (w : Nat → F) : Nat → Nat → Option Nat × F
  | 0 => fun _ => (none, zero)
  | p + 1 => fun i =>
    if i ∈ begins p then pBest (fun j => (vTable begins ends w p j).2) (w i) (ends p) (none, zero)
    else vTable begins ends w p i

/-- The node list `nodes` is `base` with the table `V` filled in. -/
def Filled (base nodes : List (LNode F)) (V : Nat → Option Nat × F) : Prop :=
  ∀ i : Nat, nodes[i]? = base[i]?.map (fun x => { x with prev := (V i).1, backtrack := (V i).2 })

omit [ScoreOps F] in
theorem Filled.length {base nodes : List (LNode F)} {V : Nat → Option Nat × F} (h : Filled base nodes V) :
    nodes.length = base.length := by
  have h1 := h nodes.length
  have h2 := h base.length
  rw [List.getElem?_eq_none (Nat.le_refl _)] at h1
  rw [List.getElem?_eq_none (l := base) (Nat.le_refl _)] at h2
  simp only [Option.map_none, List.getElem?_eq_none_iff] at h2
  have h1 : base[nodes.length]? = none := by
    cases h3 : base[nodes.length]? with
    | none => rfl
    | some x => rw [h3] at h1; simp at h1
  rw [List.getElem?_eq_none_iff] at h1
  omega

theorem pBest_congr {bt bt' : Nat → F} {r : F} {ends : List Nat} (h : ∀ l ∈ ends, bt l = bt' l) (st : Option Nat × F) :
    pBest bt r ends st = pBest bt' r ends st := by
  induction ends generalizing st with
  | nil => rfl
  | cons l ends ih =>
    unfold pBest
    rw [List.foldl_cons, List.foldl_cons, h l (by simp)]
    exact ih (fun x hx => h x (by simp [hx])) _

theorem pBest_isSome {bt : Nat → F} {r : F} {ends : List Nat} {st : Option Nat × F} (h : st.1.isSome ∨ ends ≠ []) :
    (pBest bt r ends st).1.isSome = true := by
  induction ends generalizing st with
  | nil => rcases h with h | h; exact h; exact absurd rfl h
  | cons l ends ih =>
    unfold pBest
    rw [List.foldl_cons]
    refine ih (.inl ?_)
    split
    · rfl
    · rename_i hc
      simp only [Bool.or_eq_true, not_or] at hc
      cases h : st.1 <;> simp [h] at hc ⊢

theorem bestPrev_eq {base nodes : List (LNode F)} {V : Nat → Option Nat × F} (h : Filled base nodes V) (r : F) :
    ∀ (ends : List Nat) (st : Option Nat × F), (∀ l ∈ ends, l < base.length) →
      Lattice.bestPrev nodes r ends st = .ok (pBest (fun j => (V j).2) r ends st) := by
  intro ends
  induction ends with
  | nil => intro st _; rfl
  | cons l ends ih =>
    intro st hl
    unfold Lattice.bestPrev
    have : nodes[l]? = some { base[l]'(hl l (by simp)) with prev := (V l).1, backtrack := (V l).2 } := by
      rw [h l, List.getElem?_eq_getElem (hl l (by simp))]; rfl
    rw [idx_of_getElem? this]
    simp only [res_bind_ok]
    have e : pBest (fun j => (V j).2) r (l :: ends) st = pBest (fun j => (V j).2) r ends
        (if st.1.isNone || lt st.2 (add (V l).2 r) then (some l, add (V l).2 r) else st) := rfl
    rw [e]
    split
    · exact ih _ (fun x hx => hl x (by simp [hx]))
    · exact ih _ (fun x hx => hl x (by simp [hx]))

omit [ScoreOps F] in
/-- One update of the node list. -/
theorem Filled.set {base nodes : List (LNode F)} {V : Nat → Option Nat × F} (h : Filled base nodes V) {r : Nat}
    (hr : r < base.length) (v : Option Nat × F) :
    setIdx nodes r { base[r] with prev := v.1, backtrack := v.2 } =
        .ok (nodes.set r { base[r] with prev := v.1, backtrack := v.2 }) ∧
      Filled base (nodes.set r { base[r] with prev := v.1, backtrack := v.2 }) (fun i => if i = r then v else V i) := by
  have hlen := h.length
  constructor
  · unfold setIdx; rw [if_pos (by omega)]
  · intro i
    rw [List.getElem?_set]
    by_cases e : r = i
    · subst e
      rw [if_pos rfl, if_pos (by omega), List.getElem?_eq_getElem hr]; simp
    · rw [if_neg e, h i]
      simp [show ¬ i = r from fun h => e h.symm]

/-- The loop over the nodes beginning at a position. -/
theorem viterbiNodes_eq {base : List (LNode F)} {ends : List Nat} (hends : ∀ l ∈ ends, l < base.length)
    (w : Nat → F) (hw : ∀ (i : Nat) x, base[i]? = some x → x.score = w i) :
    ∀ (begins : List Nat) (nodes : List (LNode F)) (V : Nat → Option Nat × F), (∀ r ∈ begins, r < base.length ∧ r ∉ ends) →
      Filled base nodes V → (begins ≠ [] → ends ≠ []) →
      ∃ nodes', Lattice.viterbiNodes ends begins nodes = .ok (nodes', true) ∧
        Filled base nodes' (fun i => if i ∈ begins then pBest (fun j => (V j).2) (w i) ends (none, zero) else V i) := by
  intro begins
  induction begins with
  | nil => intro nodes V _ h _; exact ⟨nodes, rfl, by simpa using h⟩
  | cons r begins ih =>
    intro nodes V hb h hne
    obtain ⟨hr, hre⟩ := hb r (by simp)
    have hget : nodes[r]? = some { base[r] with prev := (V r).1, backtrack := (V r).2 } := by
      rw [h r, List.getElem?_eq_getElem hr]; rfl
    have hsc : base[r].score = w r := hw r _ (List.getElem?_eq_getElem hr)
    unfold Lattice.viterbiNodes
    rw [idx_of_getElem? hget]
    simp only [res_bind_ok]
    obtain ⟨h1, h2⟩ := h.set hr (none, (V r).2)
    rw [h1]
    simp only [res_bind_ok]
    rw [bestPrev_eq h2 _ ends _ hends]
    simp only [res_bind_ok]
    have hcongr : pBest (fun j => (if j = r then ((none, (V r).2) : Option Nat × F) else V j).2) base[r].score ends (none, zero) =
        pBest (fun j => (V j).2) (w r) ends (none, zero) := by
      rw [hsc]
      apply pBest_congr
      intro l hl
      have : ¬ l = r := fun e => hre (e ▸ hl)
      rw [if_neg this]
    rw [hcongr]
    have hsome := pBest_isSome (bt := fun j => (V j).2) (r := w r) (ends := ends) (st := (none, zero)) (.inr (hne (by simp)))
    cases hb' : (pBest (fun j => (V j).2) (w r) ends (none, zero)).1 with
    | none => rw [hb'] at hsome; simp at hsome
    | some b =>
      simp only
      obtain ⟨h3, h4⟩ := h2.set hr (pBest (fun j => (V j).2) (w r) ends (none, zero))
      rw [hb'] at h3
      rw [h3]
      simp only [res_bind_ok]
      rw [hb'] at h4
      obtain ⟨nodes', h5, h6⟩ := ih _ _ (fun x hx => hb x (by simp [hx])) h4 (fun _ => hne (by simp))
      refine ⟨nodes', h5, ?_⟩
      intro i
      rw [h6 i]
      congr 1
      funext x
      have hv : (fun i => if i ∈ begins then
            pBest (fun j => ((if j = r then pBest (fun j => (V j).2) (w r) ends (none, zero)
              else if j = r then ((none, (V r).2) : Option Nat × F) else V j)).2) (w i) ends (none, zero)
          else if i = r then pBest (fun j => (V j).2) (w r) ends (none, zero)
            else if i = r then (none, (V r).2) else V i) i =
          (if i ∈ r :: begins then pBest (fun j => (V j).2) (w i) ends (none, zero) else V i) := by
        simp only
        have e : pBest (fun j => ((if j = r then pBest (fun j => (V j).2) (w r) ends (none, zero)
              else if j = r then ((none, (V r).2) : Option Nat × F) else V j)).2) (w i) ends (none, zero) =
            pBest (fun j => (V j).2) (w i) ends (none, zero) := by
          apply pBest_congr
          intro l hl
          have : ¬ l = r := fun e => hre (e ▸ hl)
          rw [if_neg this, if_neg this]
        rw [e]
        by_cases hi : i ∈ begins
        · simp [hi]
        · by_cases hir : i = r
          · subst hir; simp
          · simp [hi, hir]
      rw [hv]

/-! ## Facts about the graph of a lattice -/

/-- What the proofs need to know about the nodes beginning and ending at the positions `0..=n`. -/
structure Graph (n : Nat) (size : Nat) (begins ends : Nat → List Nat) : Prop where
  begin_lt : ∀ {p r}, r ∈ begins p → r < size
  end_lt : ∀ {p l}, l ∈ ends p → l < size
  begin_inj : ∀ {p q r}, r ∈ begins p → r ∈ begins q → p = q
  bos : ∀ p, 0 ∉ begins p
  ends_from : ∀ {p l}, l ∈ ends p → (l = 0 ∧ p = 0) ∨ ∃ q, q < p ∧ l ∈ begins q
  end_inj : ∀ {p q r}, r ∈ ends p → r ∈ ends q → p = q
  bos_end : 0 ∈ ends 0
  eos : 1 ∈ begins n
  eos_end : ∀ p, 1 ∉ ends p
  begin_le : ∀ {p r}, r ∈ begins p → p ≤ n
  begin_end : ∀ {p r}, r ∈ begins p → r ≠ 1 → ∃ q, q ≤ n ∧ r ∈ ends q

/-- No node begins at a position where none ends. -/
def Connected (n : Nat) (begins ends : Nat → List Nat) : Prop := ∀ p, p ≤ n → begins p ≠ [] → ends p ≠ []

variable {n size : Nat} {begins ends : Nat → List Nat} {w : Nat → F}

theorem vTable_stable (g : Graph n size begins ends) {q r : Nat} (h : r ∈ begins q ∨ (r = 0 ∧ q = 0)) (d : Nat) :
    vTable begins ends w (q + 1 + d) r = vTable begins ends w (q + 1) r := by
  induction d with
  | zero => rfl
  | succ d ih =>
    have hn : r ∉ begins (q + 1 + d) := by
      intro hc
      rcases h with h | ⟨rfl, _⟩
      · have := g.begin_inj h hc; omega
      · exact g.bos _ hc
    rw [← ih]
    show (if r ∈ begins (q + 1 + d) then _ else _) = _
    rw [if_neg hn]; rfl

/-- The final table. -/
def vFinal (n : Nat) (begins ends : Nat → List Nat) (w : Nat → F) : Nat → Option Nat × F := vTable begins ends w (n + 1)

theorem vFinal_eq_at (g : Graph n size begins ends) {p l : Nat} (hp : p ≤ n) (hl : l ∈ ends p) :
    vTable begins ends w p l = vFinal n begins ends w l := by
  unfold vFinal
  rcases g.ends_from hl with ⟨rfl, rfl⟩ | ⟨q, hq, hlq⟩
  · have h1 := vTable_stable (w := w) g (q := 0) (r := 0) (.inr ⟨rfl, rfl⟩) n
    rw [show 0 + 1 + n = n + 1 by omega] at h1
    rw [h1]
    show _ = (if 0 ∈ begins 0 then _ else _)
    rw [if_neg (g.bos 0)]
  · have h1 := vTable_stable (w := w) g (.inl hlq) (n - q)
    have h2 := vTable_stable (w := w) g (.inl hlq) (p - (q + 1))
    rw [show q + 1 + (n - q) = n + 1 by omega] at h1
    rw [show q + 1 + (p - (q + 1)) = p by omega] at h2
    rw [h1, h2]

/-- The equation of the final table. -/
theorem vFinal_begin (g : Graph n size begins ends) {p r : Nat} (hr : r ∈ begins p) :
    vFinal n begins ends w r = pBest (fun j => (vFinal n begins ends w j).2) (w r) (ends p) (none, zero) := by
  have hp := g.begin_le hr
  have h1 := vTable_stable (w := w) g (.inl hr) (n - p)
  rw [show p + 1 + (n - p) = n + 1 by omega] at h1
  unfold vFinal
  rw [h1]
  show (if r ∈ begins p then _ else _) = _
  rw [if_pos hr]
  apply pBest_congr
  intro l hl
  rw [vFinal_eq_at g hp hl]
  rfl

theorem vFinal_bos (g : Graph n size begins ends) : vFinal n begins ends w 0 = (none, zero) := by
  have h : ∀ p, vTable begins ends w p 0 = (none, zero) := by
    intro p
    induction p with
    | zero => rfl
    | succ p ih =>
      show (if 0 ∈ begins p then _ else _) = _
      rw [if_neg (g.bos p), ih]
  exact h _

/-! ## Running the loops -/

theorem viterbiLoop_eq (g : Graph n size begins ends) (hc : Connected n begins ends) (l : Lattice F) (hn : l.nodes.length = size)
    (hb : ∀ p, p ≤ n → l.beginNodes[p]? = some (begins p)) (he : ∀ p, p ≤ n → l.endNodes[p]? = some (ends p))
    (hw : ∀ (i : Nat) x, l.nodes[i]? = some x → x.score = w i)
    (hinit : ∀ x ∈ l.nodes, x.prev = none ∧ x.backtrack = zero) :
    ∃ nodes, Lattice.viterbiLoop l (List.range (n + 1)) l.nodes = .ok (nodes, true) ∧
      Filled l.nodes nodes (vFinal n begins ends w) := by
  have hdisj : ∀ {p r}, r ∈ begins p → r ∉ ends p := by
    intro p r h1 h2
    rcases g.ends_from h2 with ⟨rfl, _⟩ | ⟨q, hq, h3⟩
    · exact g.bos _ h1
    · have := g.begin_inj h1 h3; omega
  have key : ∀ (d p : Nat) (nodes : List (LNode F)), p + d = n + 1 → Filled l.nodes nodes (vTable begins ends w p) →
      ∃ nodes', Lattice.viterbiLoop l (List.range' p d) nodes = .ok (nodes', true) ∧
        Filled l.nodes nodes' (vFinal n begins ends w) := by
    intro d
    induction d with
    | zero =>
      intro p nodes hp h
      refine ⟨nodes, rfl, ?_⟩
      rw [show p = n + 1 by omega] at h; exact h
    | succ d ih =>
      intro p nodes hp h
      rw [List.range'_succ]
      unfold Lattice.viterbiLoop
      rw [idx_of_getElem? (hb p (by omega)), idx_of_getElem? (he p (by omega))]
      simp only [res_bind_ok]
      obtain ⟨nodes', h1, h2⟩ := viterbiNodes_eq (base := l.nodes) (ends := ends p)
        (fun x hx => by rw [hn]; exact g.end_lt hx) w hw (begins p) nodes (vTable begins ends w p)
        (fun r hr => ⟨by rw [hn]; exact g.begin_lt hr, hdisj hr⟩) h (hc p (by omega))
      rw [h1]
      simp only [res_bind_ok, if_true]
      exact ih (p + 1) nodes' (by omega) h2
  rw [List.range_eq_range']
  refine key (n + 1) 0 l.nodes (by omega) ?_
  intro i
  cases hx : l.nodes[i]? with
  | none => rfl
  | some x =>
    obtain ⟨h1, h2⟩ := hinit x (List.mem_of_getElem? hx)
    simp only [Option.map_some, Option.some.injEq, vTable]
    cases x
    simp_all

/-- If some node begins where none ends, `viterbi` gives up. -/
theorem viterbiLoop_gap (g : Graph n size begins ends) (hc : ¬ Connected n begins ends) (l : Lattice F)
    (hn : l.nodes.length = size)
    (hb : ∀ p, p ≤ n → l.beginNodes[p]? = some (begins p)) (he : ∀ p, p ≤ n → l.endNodes[p]? = some (ends p))
    (hw : ∀ (i : Nat) x, l.nodes[i]? = some x → x.score = w i)
    (hinit : ∀ x ∈ l.nodes, x.prev = none ∧ x.backtrack = zero) :
    ∃ nodes, Lattice.viterbiLoop l (List.range (n + 1)) l.nodes = .ok (nodes, false) := by
  have hdisj : ∀ {p r}, r ∈ begins p → r ∉ ends p := by
    intro p r h1 h2
    rcases g.ends_from h2 with ⟨rfl, _⟩ | ⟨q, hq, h3⟩
    · exact g.bos _ h1
    · have := g.begin_inj h1 h3; omega
  have hgap : ∃ q, q ≤ n ∧ begins q ≠ [] ∧ ends q = [] := by
    by_cases h : ∃ q, q ≤ n ∧ begins q ≠ [] ∧ ends q = []
    · exact h
    · refine absurd (fun p hp hbp hep => h ⟨p, hp, hbp, hep⟩) hc
  have key : ∀ (d p : Nat) (nodes : List (LNode F)), p + d = n + 1 → Filled l.nodes nodes (vTable begins ends w p) →
      (∃ q, p ≤ q ∧ q ≤ n ∧ begins q ≠ [] ∧ ends q = []) →
      ∃ nodes', Lattice.viterbiLoop l (List.range' p d) nodes = .ok (nodes', false) := by
    intro d
    induction d with
    | zero => rintro p nodes hp h ⟨q, h1, h2, _⟩; omega
    | succ d ih =>
      rintro p nodes hp h ⟨q, hpq, hqn, hq1, hq2⟩
      rw [List.range'_succ]
      unfold Lattice.viterbiLoop
      rw [idx_of_getElem? (hb p (by omega)), idx_of_getElem? (he p (by omega))]
      simp only [res_bind_ok]
      by_cases hcp : begins p ≠ [] → ends p ≠ []
      · obtain ⟨nodes', h1, h2⟩ := viterbiNodes_eq (base := l.nodes) (ends := ends p)
          (fun x hx => by rw [hn]; exact g.end_lt hx) w hw (begins p) nodes (vTable begins ends w p)
          (fun r hr => ⟨by rw [hn]; exact g.begin_lt hr, hdisj hr⟩) h hcp
        rw [h1]
        simp only [res_bind_ok, if_true]
        refine ih (p + 1) nodes' (by omega) h2 ⟨q, ?_, hqn, hq1, hq2⟩
        by_cases e : p = q
        · subst e; exact absurd hq2 (hcp hq1)
        · omega
      · have h1 : begins p ≠ [] := fun e => hcp (fun h => absurd e h)
        have h2 : ends p = [] := by
          by_cases e : ends p = []
          · exact e
          · exact absurd (fun _ => e) hcp
        obtain ⟨r, rest, hr⟩ := List.exists_cons_of_ne_nil h1
        have hrl : r < l.nodes.length := by rw [hn]; exact g.begin_lt (p := p) (by rw [hr]; simp)
        have hget : nodes[r]? = some { l.nodes[r] with prev := (vTable begins ends w p r).1, backtrack := (vTable begins ends w p r).2 } := by
          rw [h r, List.getElem?_eq_getElem hrl]; rfl
        rw [hr, h2]
        unfold Lattice.viterbiNodes
        rw [idx_of_getElem? hget]
        simp only [res_bind_ok]
        obtain ⟨h3, _⟩ := h.set hrl (none, (vTable begins ends w p r).2)
        rw [h3]
        exact ⟨_, rfl⟩
  rw [List.range_eq_range']
  obtain ⟨q, hq⟩ := hgap
  refine key (n + 1) 0 l.nodes (by omega) ?_ ⟨q, Nat.zero_le _, hq⟩
  intro i
  cases hx : l.nodes[i]? with
  | none => rfl
  | some x =>
    obtain ⟨h1, h2⟩ := hinit x (List.mem_of_getElem? hx)
    simp only [Option.map_some, Option.some.injEq, vTable]
    cases x
    simp_all

/-! ## Paths -/

/-- `ks` are the nodes of a path from position 0 to position `p`. -/
inductive GPath (begins ends : Nat → List Nat) : Nat → List Nat → Prop
  | nil : GPath begins ends 0 []
  | snoc {p q k : Nat} {ks : List Nat} : GPath begins ends p ks → k ∈ begins p → k ∈ ends q →
      GPath begins ends q (ks ++ [k])

/-- A path found by backtracking through the table `V`. -/
inductive BPath (begins ends : Nat → List Nat) (w : Nat → F) (V : Nat → Option Nat × F) : Nat → List Nat → Prop
  | nil : BPath begins ends w V 0 []
  | snoc {p q k r : Nat} {ks : List Nat} : BPath begins ends w V p ks → k ∈ begins p → k ∈ ends q → r ∈ begins q →
      (V r).1 = some k → (V k).2 = add ((ks.map w).foldl add zero) (w k) → BPath begins ends w V q (ks ++ [k])

theorem BPath.path {V : Nat → Option Nat × F} {p : Nat} {ks : List Nat} (h : BPath begins ends w V p ks) :
    GPath begins ends p ks := by
  induction h with
  | nil => exact .nil
  | snoc _ h1 h2 _ _ _ ih => exact .snoc ih h1 h2

/-- Score of a path. -/
def pathScore (w : Nat → F) (ks : List Nat) : F := (ks.map w).foldl add zero

theorem pathScore_snoc (w : Nat → F) (ks : List Nat) (k : Nat) : pathScore w (ks ++ [k]) = add (pathScore w ks) (w k) := by
  simp [pathScore]

/-- The pick of `pBest` is one of the candidates, with its value. -/
theorem pBest_mem {bt : Nat → F} {r : F} : ∀ (ends : List Nat) (st : Option Nat × F),
    pBest bt r ends st = st ∨ ∃ l ∈ ends, pBest bt r ends st = (some l, add (bt l) r) := by
  intro ends
  induction ends with
  | nil => intro st; exact .inl rfl
  | cons l ends ih =>
    intro st
    have e : pBest bt r (l :: ends) st = pBest bt r ends
        (if st.1.isNone || lt st.2 (add (bt l) r) then (some l, add (bt l) r) else st) := rfl
    rw [e]
    split
    · rcases ih (some l, add (bt l) r) with h | ⟨x, hx, h⟩
      · exact .inr ⟨l, by simp, h⟩
      · exact .inr ⟨x, by simp [hx], h⟩
    · rcases ih st with h | ⟨x, hx, h⟩
      · exact .inl h
      · exact .inr ⟨x, by simp [hx], h⟩

theorem vFinal_pick (g : Graph n size begins ends) {p r : Nat} (hr : r ∈ begins p) (hne : ends p ≠ []) :
    ∃ l ∈ ends p, vFinal n begins ends w r = (some l, add (vFinal n begins ends w l).2 (w r)) := by
  have h := vFinal_begin (w := w) g hr
  rcases pBest_mem (bt := fun j => (vFinal n begins ends w j).2) (r := w r) (ends p) (none, zero) with h1 | h1
  · have h2 := pBest_isSome (bt := fun j => (vFinal n begins ends w j).2) (r := w r) (ends := ends p) (st := (none, zero)) (.inr hne)
    rw [h1] at h2; simp at h2
  · obtain ⟨l, hl, h1⟩ := h1
    exact ⟨l, hl, by rw [h, h1]⟩

/-- Following `prev` from a node gives a path to where the node begins. -/
theorem backtrackNodes_ok (g : Graph n size begins ends) (hc : Connected n begins ends) {base nodes : List (LNode F)}
    (hsize : base.length = size) (hf : Filled base nodes (vFinal n begins ends w)) (node : Nat → LNode F)
    (hnode : ∀ (i : Nat) x, nodes[i]? = some x → node i = x) :
    ∀ (p : Nat), p ≤ n → ∀ (r : Nat), r ∈ begins p → ∀ fuel, p + 1 < fuel → ∀ acc,
      ∃ ks, Lattice.backtrackNodes nodes fuel r acc = .ok ((ks ++ [r]).map node ++ acc) ∧
        BPath begins ends w (vFinal n begins ends w) p ks ∧
        (vFinal n begins ends w r).2 = add (pathScore w ks) (w r) := by
  intro p
  induction p using Nat.strongRecOn with
  | ind p ih =>
    intro hp r hr fuel hfuel acc
    have hlen := hf.length
    obtain ⟨l, hl, hv⟩ := vFinal_pick (w := w) g hr (hc p hp (List.ne_nil_of_mem hr))
    have hrs : r < nodes.length := by rw [hlen, hsize]; exact g.begin_lt hr
    have hget : nodes[r]? = some nodes[r] := List.getElem?_eq_getElem hrs
    have hprev : nodes[r].prev = some l := by
      have := hf r
      rw [hget] at this
      cases hb : base[r]? with
      | none => rw [hb] at this; simp at this
      | some x =>
        rw [hb] at this
        simp only [Option.map_some, Option.some.injEq] at this
        rw [this, hv]
    cases fuel with
    | zero => omega
    | succ fuel =>
      have hunf : Lattice.backtrackNodes nodes (fuel + 1) r acc =
          Lattice.backtrackNodes nodes fuel l (nodes[r] :: acc) := by
        show (idx nodes r >>= _) = _
        rw [idx_of_getElem? hget]
        simp only [res_bind_ok]
        rw [hprev]
      rw [hunf]
      have hnr : node r = nodes[r] := hnode r _ hget
      rcases g.ends_from hl with ⟨rfl, rfl⟩ | ⟨q, hq, hlq⟩
      · cases fuel with
        | zero => omega
        | succ fuel =>
          have h0 : 0 < nodes.length := by omega
          have hget0 : nodes[0]? = some nodes[0] := List.getElem?_eq_getElem h0
          have hprev0 : nodes[0].prev = none := by
            have := hf 0
            rw [hget0] at this
            cases hb : base[0]? with
            | none => rw [hb] at this; simp at this
            | some x =>
              rw [hb] at this
              simp only [Option.map_some, Option.some.injEq] at this
              rw [this, vFinal_bos g]
          refine ⟨[], ?_, .nil, ?_⟩
          · show (idx nodes 0 >>= _) = _
            rw [idx_of_getElem? hget0]
            simp only [res_bind_ok]
            rw [hprev0]
            simp [hnr]
          · rw [hv, vFinal_bos g]; rfl
      · obtain ⟨ks, h1, h2, h3⟩ := ih q hq (by omega) l hlq fuel (by omega) (nodes[r] :: acc)
        refine ⟨ks ++ [l], ?_, .snoc h2 hlq hl hr (by rw [hv]) h3, ?_⟩
        · rw [h1]; simp [hnr]
        · rw [hv, h3, pathScore_snoc]

/-! ## Optimality -/

theorem good_path {good tok : F → Prop} (L : ScoreLaws F good tok) (hw : ∀ i, tok (w i)) (ks : List Nat) :
    good (pathScore w ks) := by
  have : ∀ (ks : List Nat) (a : F), good a → good ((ks.map w).foldl add a) := by
    intro ks
    induction ks with
    | nil => intro a h; exact h
    | cons k ks ih => intro a h; exact ih _ (L.add_good h (hw k))
  exact this ks _ L.zero_good

theorem pBest_good {good tok : F → Prop} (L : ScoreLaws F good tok) {bt : Nat → F} {r : F} (hr : tok r) {ends : List Nat}
    (hbt : ∀ l ∈ ends, good (bt l)) {st : Option Nat × F} (hst : good st.2) : good (pBest bt r ends st).2 := by
  rcases pBest_mem (bt := bt) (r := r) ends st with h | ⟨l, hl, h⟩
  · rw [h]; exact hst
  · rw [h]; exact L.add_good (hbt l hl) hr

/-- `a < b` and `c` is not above `a` gives `c < b`. -/
theorem Spec.ScoreLaws.lt_of_le_of_lt {good tok : F → Prop} (L : ScoreLaws F good tok) {a b c : F} (ha : good a) (hb : good b)
    (hc : good c) (h1 : lt a c = false) (h2 : lt a b = true) : lt c b = true := by
  cases h : lt c b with
  | true => rfl
  | false =>
    have := L.trans ha hc hb h1 h
    rw [this] at h2; simp at h2

theorem Spec.ScoreLaws.lt_of_lt_of_le {good tok : F → Prop} (L : ScoreLaws F good tok) {a b c : F} (ha : good a) (hb : good b)
    (hc : good c) (h1 : lt a b = true) (h2 : lt c b = false) : lt a c = true := by
  cases h : lt a c with
  | true => rfl
  | false =>
    have := L.trans ha hc hb h h2
    rw [this] at h1; simp at h1

/-- First maximum: the pick dominates every candidate, and strictly those before it. -/
theorem pBest_spec {good tok : F → Prop} (L : ScoreLaws F good tok) {bt : Nat → F} {r : F} (hr : tok r) :
    ∀ (ends : List Nat), (∀ l ∈ ends, good (bt l)) → ends ≠ [] →
      ∃ a l b, ends = a ++ l :: b ∧ pBest bt r ends (none, zero) = (some l, add (bt l) r) ∧
        (∀ x ∈ ends, lt (add (bt l) r) (add (bt x) r) = false) ∧
        (∀ x ∈ a, lt (add (bt x) r) (add (bt l) r) = true) := by
  have key : ∀ (ends pre : List Nat) (cur : Nat) (mid : List Nat), (∀ l ∈ pre ++ cur :: mid ++ ends, good (bt l)) →
      (∀ x ∈ pre ++ cur :: mid, lt (add (bt cur) r) (add (bt x) r) = false) →
      (∀ x ∈ pre, lt (add (bt x) r) (add (bt cur) r) = true) →
      ∃ a l b, pre ++ cur :: mid ++ ends = a ++ l :: b ∧
        pBest bt r ends (some cur, add (bt cur) r) = (some l, add (bt l) r) ∧
        (∀ x ∈ pre ++ cur :: mid ++ ends, lt (add (bt l) r) (add (bt x) r) = false) ∧
        (∀ x ∈ a, lt (add (bt x) r) (add (bt l) r) = true) := by
    intro ends
    induction ends with
    | nil =>
      intro pre cur mid hg h1 h2
      exact ⟨pre, cur, mid, by simp, rfl, by simpa using h1, h2⟩
    | cons y ends ih =>
      intro pre cur mid hg h1 h2
      have hgood : ∀ x ∈ pre ++ cur :: mid ++ y :: ends, good (add (bt x) r) := fun x hx => L.add_good (hg x hx) hr
      have hgc := hgood cur (by simp)
      have hgy := hgood y (by simp)
      have e : pBest bt r (y :: ends) (some cur, add (bt cur) r) = pBest bt r ends
        (if lt (add (bt cur) r) (add (bt y) r) then (some y, add (bt y) r) else (some cur, add (bt cur) r)) := by
        simp [pBest]
      rw [e]
      by_cases hlt : lt (add (bt cur) r) (add (bt y) r) = true
      · rw [if_pos hlt]
        have := ih (pre ++ cur :: mid) y [] (by simpa using hg) ?_ ?_
        · simpa using this
        · intro x hx
          rcases List.mem_append.1 hx with hx | hx
          · have hgx := hgood x (List.mem_append_left _ hx)
            exact L.trans hgy hgc hgx (L.asymm hgc hgy hlt) (h1 x hx)
          · simp only [List.mem_singleton] at hx
            subst hx; exact L.irrefl hgy
        · intro x hx
          have hgx := hgood x (List.mem_append_left _ hx)
          exact L.lt_of_le_of_lt hgc hgy hgx (h1 x hx) hlt
      · rw [if_neg hlt]
        have := ih pre cur (mid ++ [y]) (by simpa using hg) ?_ h2
        · simpa using this
        · intro x hx
          have hx : x ∈ pre ++ cur :: mid ∨ x = y := by
            simp only [List.mem_append, List.mem_cons, List.not_mem_nil, or_false] at hx ⊢
            rcases hx with h | h | h | h
            · exact .inl (.inl h)
            · exact .inl (.inr (.inl h))
            · exact .inl (.inr (.inr h))
            · exact .inr h
          rcases hx with hx | rfl
          · exact h1 x hx
          · simpa using hlt
  intro ends hg hne
  cases ends with
  | nil => exact absurd rfl hne
  | cons y ends =>
    have := key ends [] y [] (by simpa using hg) (by simpa using L.irrefl (L.add_good (hg y (by simp)) hr)) (by simp)
    simpa [pBest] using this

theorem vFinal_good {good tok : F → Prop} (L : ScoreLaws F good tok) (hw : ∀ i, tok (w i)) (p i : Nat) :
    good (vTable begins ends w p i).2 := by
  induction p generalizing i with
  | zero => exact L.zero_good
  | succ p ih =>
    unfold vTable
    split
    · exact pBest_good L (hw i) (fun l _ => ih l) L.zero_good
    · exact ih i

/-- The final score of a node dominates every path to its beginning. -/
theorem vFinal_dominates {good tok : F → Prop} (L : ScoreLaws F good tok) (hw : ∀ i, tok (w i)) (g : Graph n size begins ends)
    (hc : Connected n begins ends) {p : Nat} {ks : List Nat} (h : GPath begins ends p ks) :
    ∀ r, r ∈ begins p → lt (vFinal n begins ends w r).2 (add (pathScore w ks) (w r)) = false := by
  induction h with
  | nil =>
    intro r hr
    obtain ⟨a, l, b, h1, h2, h3, _⟩ := pBest_spec L (bt := fun j => (vFinal n begins ends w j).2) (hw r) (ends 0)
      (fun l _ => vFinal_good L hw _ _) (hc 0 (by omega) (List.ne_nil_of_mem hr))
    rw [vFinal_begin g hr, h2]
    have := h3 0 g.bos_end
    simpa [vFinal_bos g, pathScore] using this
  | @snoc p q k ks hp hkb hke ih =>
    intro r hr
    have hq : q ≤ n := g.begin_le hr
    obtain ⟨a, l, b, h1, h2, h3, _⟩ := pBest_spec L (bt := fun j => (vFinal n begins ends w j).2) (hw r) (ends q)
      (fun l _ => vFinal_good L hw _ _) (List.ne_nil_of_mem hke)
    rw [vFinal_begin g hr, h2, pathScore_snoc]
    have hgl : good (vFinal n begins ends w l).2 := vFinal_good L hw _ _
    have hgk : good (vFinal n begins ends w k).2 := vFinal_good L hw _ _
    have hgp := good_path L hw ks
    exact L.trans (L.add_good hgl (hw r)) (L.add_good hgk (hw r)) (L.add_good (L.add_good hgp (hw k)) (hw r))
      (h3 k hke) (L.add_mono hgk (L.add_good hgp (hw k)) (hw r) (ih k hkb))

/-! ## The graph of `latticeOf` -/

omit [ScoreOps F] in
theorem mem_nodesWhere {c : Entry F → Bool} {es : List (Entry F)} {k : Nat} :
    k ∈ nodesWhere c es ↔ ∃ j e, k = j + 2 ∧ es[j]? = some e ∧ c e = true := by
  unfold nodesWhere
  simp only [List.mem_filterMap, Prod.exists]
  constructor
  · rintro ⟨e, i, hm, h⟩
    rw [List.mem_zipIdx_iff_le_and_getElem?_sub] at hm
    by_cases hce : c e = true
    · rw [if_pos hce] at h
      simp only [Option.some.injEq] at h
      subst h
      exact ⟨i - 2, e, by omega, hm.2, hce⟩
    · rw [if_neg hce] at h; simp at h
  · rintro ⟨j, e, rfl, h1, h2⟩
    refine ⟨e, j + 2, ?_, by rw [if_pos h2]⟩
    rw [List.mem_zipIdx_iff_le_and_getElem?_sub]
    exact ⟨by omega, by simpa using h1⟩

/-- Nodes beginning at `p`. -/
def lBegins (n : Nat) (es : List (Entry F)) (p : Nat) : List Nat :=
  (if p = n then [1] else []) ++ nodesWhere (fun e => e.pos == p) es

/-- Nodes ending at `p`. -/
def lEnds (es : List (Entry F)) (p : Nat) : List Nat :=
  (if p = 0 then [0] else []) ++ nodesWhere (fun e => e.pos + e.len == p) es

/-- Scores of the nodes. -/
def lScore (es : List (Entry F)) (i : Nat) : F :=
  match i with
  | 0 => zero
  | 1 => zero
  | j + 2 => match es[j]? with | some e => e.score | none => zero

omit [ScoreOps F] in
theorem mem_lBegins {n : Nat} {es : List (Entry F)} {p r : Nat} :
    r ∈ lBegins n es p ↔ (r = 1 ∧ p = n) ∨ ∃ j e, r = j + 2 ∧ es[j]? = some e ∧ e.pos = p := by
  unfold lBegins
  rw [List.mem_append, mem_nodesWhere]
  simp only [beq_iff_eq]
  by_cases h : p = n <;> simp [h]

omit [ScoreOps F] in
theorem mem_lEnds {es : List (Entry F)} {p r : Nat} :
    r ∈ lEnds es p ↔ (r = 0 ∧ p = 0) ∨ ∃ j e, r = j + 2 ∧ es[j]? = some e ∧ e.pos + e.len = p := by
  unfold lEnds
  rw [List.mem_append, mem_nodesWhere]
  simp only [beq_iff_eq]
  by_cases h : p = 0 <;> simp [h]

omit [ScoreOps F] in
theorem graph_lattice {n : Nat} {es : List (Entry F)} (h : Inside n es) :
    Graph n (es.length + 2) (lBegins n es) (lEnds es) where
  begin_lt := by
    intro p r hr
    rcases mem_lBegins.1 hr with ⟨rfl, _⟩ | ⟨j, e, rfl, h1, _⟩
    · omega
    · have := (List.getElem?_eq_some_iff.1 h1).1; omega
  end_lt := by
    intro p r hr
    rcases mem_lEnds.1 hr with ⟨rfl, _⟩ | ⟨j, e, rfl, h1, _⟩
    · omega
    · have := (List.getElem?_eq_some_iff.1 h1).1; omega
  begin_inj := by
    intro p q r h1 h2
    rcases mem_lBegins.1 h1 with ⟨rfl, h1⟩ | ⟨j, e, rfl, h1, h1'⟩ <;>
      rcases mem_lBegins.1 h2 with ⟨h0, h2⟩ | ⟨j', e', h0, h2, h2'⟩
    · omega
    · omega
    · omega
    · have : j = j' := by omega
      subst this
      rw [h1] at h2
      simp only [Option.some.injEq] at h2
      subst h2; omega
  bos := by
    intro p hp
    rcases mem_lBegins.1 hp with ⟨h, _⟩ | ⟨j, e, h, _⟩ <;> omega
  ends_from := by
    intro p l hl
    rcases mem_lEnds.1 hl with h1 | ⟨j, e, rfl, h1, h2⟩
    · exact .inl h1
    · obtain ⟨h3, h4⟩ := h e (List.mem_of_getElem? h1)
      exact .inr ⟨e.pos, by omega, mem_lBegins.2 (.inr ⟨j, e, rfl, h1, rfl⟩)⟩
  end_inj := by
    intro p q r h1 h2
    rcases mem_lEnds.1 h1 with ⟨rfl, h1⟩ | ⟨j, e, rfl, h1, h1'⟩ <;>
      rcases mem_lEnds.1 h2 with ⟨h0, h2⟩ | ⟨j', e', h0, h2, h2'⟩
    · omega
    · omega
    · omega
    · have : j = j' := by omega
      subst this
      rw [h1] at h2
      simp only [Option.some.injEq] at h2
      subst h2; omega
  bos_end := mem_lEnds.2 (.inl ⟨rfl, rfl⟩)
  eos := mem_lBegins.2 (.inl ⟨rfl, rfl⟩)
  eos_end := by
    intro p hp
    rcases mem_lEnds.1 hp with ⟨h, _⟩ | ⟨j, e, h, _⟩ <;> omega
  begin_le := by
    intro p r hr
    rcases mem_lBegins.1 hr with ⟨_, h1⟩ | ⟨j, e, _, h1, h2⟩
    · omega
    · have := h e (List.mem_of_getElem? h1); omega
  begin_end := by
    intro p r hr hne
    rcases mem_lBegins.1 hr with ⟨h1, _⟩ | ⟨j, e, rfl, h1, h2⟩
    · exact absurd h1 hne
    · have := h e (List.mem_of_getElem? h1)
      exact ⟨e.pos + e.len, this.2, mem_lEnds.2 (.inr ⟨j, e, rfl, h1, rfl⟩)⟩

/-- The nodes of `latticeOf` with a table filled in. -/
def filledNode (sentence : List UInt8) (es : List (Entry F)) (V : Nat → Option Nat × F) (i : Nat) : LNode F :=
  let x := (latticeOf sentence es).nodes.getD i (LNode.new 0 0 0 zero)
  { x with prev := (V i).1, backtrack := (V i).2 }

theorem latticeOf_nodes_length (sentence : List UInt8) (es : List (Entry F)) :
    (latticeOf sentence es).nodes.length = es.length + 2 := by simp [latticeOf]

theorem latticeOf_score (sentence : List UInt8) (es : List (Entry F)) (i : Nat) (x : LNode F)
    (h : (latticeOf sentence es).nodes[i]? = some x) : x.score = lScore es i ∧ x.prev = none ∧ x.backtrack = zero := by
  match i with
  | 0 => simp only [latticeOf, List.getElem?_cons_zero, Option.some.injEq] at h; subst h; exact ⟨rfl, rfl, rfl⟩
  | 1 =>
    simp only [latticeOf, List.getElem?_cons_succ, List.getElem?_cons_zero, Option.some.injEq] at h
    subst h; exact ⟨rfl, rfl, rfl⟩
  | j + 2 =>
    simp only [latticeOf, List.getElem?_cons_succ, List.getElem?_map, Option.map_eq_some_iff] at h
    obtain ⟨e, he, rfl⟩ := h
    exact ⟨by simp [lScore, he, LNode.new], rfl, rfl⟩

theorem latticeOf_begin (sentence : List UInt8) (es : List (Entry F)) (p : Nat) (hp : p ≤ sentence.length) :
    (latticeOf sentence es).beginNodes[p]? = some (lBegins sentence.length es p) := by
  simp [latticeOf, lBegins, show p < sentence.length + 1 by omega]

theorem latticeOf_end (sentence : List UInt8) (es : List (Entry F)) (p : Nat) (hp : p ≤ sentence.length) :
    (latticeOf sentence es).endNodes[p]? = some (lEnds es p) := by
  simp [latticeOf, lEnds, show p < sentence.length + 1 by omega]

theorem viterbi_gap {sentence : List UInt8} {es : List (Entry F)} (h : Inside sentence.length es)
    (hc : ¬ Connected sentence.length (lBegins sentence.length es) (lEnds es)) :
    ∃ nodes, (latticeOf sentence es).viterbi = .ok ({ latticeOf sentence es with nodes := nodes }, []) := by
  obtain ⟨nodes, h1⟩ := viterbiLoop_gap (w := lScore es) (graph_lattice h) hc (latticeOf sentence es)
    (latticeOf_nodes_length sentence es) (latticeOf_begin sentence es) (latticeOf_end sentence es)
    (fun i x hx => (latticeOf_score sentence es i x hx).1)
    (fun x hx => by
      obtain ⟨i, hi, rfl⟩ := List.getElem_of_mem hx
      exact (latticeOf_score sentence es i _ (List.getElem?_eq_getElem hi)).2)
  refine ⟨nodes, ?_⟩
  unfold Lattice.viterbi
  rw [show (latticeOf sentence es).sentence.length = sentence.length from rfl, h1]
  rfl

/-- `viterbi` on a lattice in which no token begins where none ends: the tokens of a best path, then the end node. -/
theorem viterbi_spec {sentence : List UInt8} {es : List (Entry F)} (h : Inside sentence.length es)
    (hc : Connected sentence.length (lBegins sentence.length es) (lEnds es)) :
    ∃ nodes ks, (latticeOf sentence es).viterbi = .ok ({ latticeOf sentence es with nodes := nodes },
        (ks ++ [1]).map (filledNode sentence es (vFinal sentence.length (lBegins sentence.length es) (lEnds es) (lScore es)))) ∧
      Filled (latticeOf sentence es).nodes nodes
        (vFinal sentence.length (lBegins sentence.length es) (lEnds es) (lScore es)) ∧
      BPath (lBegins sentence.length es) (lEnds es) (lScore es)
        (vFinal sentence.length (lBegins sentence.length es) (lEnds es) (lScore es)) sentence.length ks ∧
      (vFinal sentence.length (lBegins sentence.length es) (lEnds es) (lScore es) 1).2 =
        add (pathScore (lScore es) ks) (lScore es 1) := by
  have g := graph_lattice h
  have hb := latticeOf_begin sentence es
  have he := latticeOf_end sentence es
  obtain ⟨nodes, h1, h2⟩ := viterbiLoop_eq (w := lScore es) g hc (latticeOf sentence es)
    (latticeOf_nodes_length sentence es) hb he (fun i x hx => (latticeOf_score sentence es i x hx).1)
    (fun x hx => by
      obtain ⟨i, hi, rfl⟩ := List.getElem_of_mem hx
      exact (latticeOf_score sentence es i _ (List.getElem?_eq_getElem hi)).2)
  have hlen := h2.length
  rw [latticeOf_nodes_length] at hlen
  obtain ⟨ks, h3, h4, h5⟩ := backtrackNodes_ok g hc (latticeOf_nodes_length sentence es) h2
    (filledNode sentence es (vFinal sentence.length (lBegins sentence.length es) (lEnds es) (lScore es)))
    (fun i x hx => by
      have := h2 i
      rw [hx] at this
      cases hb : (latticeOf sentence es).nodes[i]? with
      | none => rw [hb] at this; simp at this
      | some y =>
        rw [hb] at this
        simp only [Option.map_some, Option.some.injEq] at this
        unfold filledNode
        rw [List.getD_eq_getElem?_getD, hb, this]; rfl)
    sentence.length (Nat.le_refl _) 1 g.eos (sentence.length + nodes.length + 2) (by omega) []
  refine ⟨nodes, ks, ?_, h2, h4, h5⟩
  unfold Lattice.viterbi
  rw [show (latticeOf sentence es).sentence.length = sentence.length from rfl, h1]
  simp only [res_bind_ok, if_true]
  rw [idx_of_getElem? (hb _ (Nat.le_refl _))]
  simp only [res_bind_ok]
  have : (lBegins sentence.length es sentence.length)[0]? = some 1 := by simp [lBegins]
  rw [idx_of_getElem? this]
  simp only [res_bind_ok]
  rw [h3]
  simp

/-! ## Paths as lists of entries -/

omit [ScoreOps F] in
theorem contiguous_snoc (path : List (Entry F)) (e : Entry F) (a b : Nat) :
    Contiguous a (path ++ [e]) b ↔ Contiguous a path e.pos ∧ e.pos + e.len = b := by
  induction path generalizing a with
  | nil =>
    simp only [List.nil_append, Contiguous]
    constructor
    · rintro ⟨rfl, h⟩; exact ⟨rfl, h⟩
    · rintro ⟨rfl, h⟩; exact ⟨rfl, h⟩
  | cons x path ih => simp only [List.cons_append, Contiguous, ih, and_assoc]

theorem entriesScore_snoc (path : List (Entry F)) (e : Entry F) :
    entriesScore (path ++ [e]) = add (entriesScore path) e.score := by simp [entriesScore]

theorem gpath_entries {n : Nat} {es : List (Entry F)} {p : Nat} {ks : List Nat}
    (h : GPath (lBegins n es) (lEnds es) p ks) :
    ∃ path : List (Entry F), ks.map (fun k => es[k - 2]?) = path.map some ∧ (∀ k ∈ ks, 2 ≤ k) ∧ (∀ e ∈ path, e ∈ es) ∧
      Contiguous 0 path p ∧ pathScore (lScore es) ks = entriesScore path := by
  induction h with
  | nil => exact ⟨[], rfl, by simp, by simp, rfl, rfl⟩
  | @snoc p q k ks hp hb he ih =>
    obtain ⟨path, h1, h2, h3, h4, h5⟩ := ih
    have hk : ∃ j e, k = j + 2 ∧ es[j]? = some e ∧ e.pos = p := by
      rcases mem_lBegins.1 hb with ⟨rfl, _⟩ | h
      · rcases mem_lEnds.1 he with ⟨h, _⟩ | ⟨j, e, h, _⟩ <;> omega
      · exact h
    obtain ⟨j, e, rfl, hj, hpos⟩ := hk
    have hq : e.pos + e.len = q := by
      rcases mem_lEnds.1 he with ⟨h, _⟩ | ⟨j', e', h, h', h''⟩
      · omega
      · have : j = j' := by omega
        subst this
        rw [hj] at h'
        simp only [Option.some.injEq] at h'
        subst h'; exact h''
    refine ⟨path ++ [e], by simp [h1, hj], ?_, ?_, ?_, ?_⟩
    · intro x hx
      rcases List.mem_append.1 hx with hx | hx
      · exact h2 x hx
      · simp only [List.mem_singleton] at hx; omega
    · intro x hx
      rcases List.mem_append.1 hx with hx | hx
      · exact h3 x hx
      · simp only [List.mem_singleton] at hx
        subst hx; exact List.mem_of_getElem? hj
    · rw [contiguous_snoc]; exact ⟨hpos ▸ h4, hq⟩
    · rw [pathScore_snoc, entriesScore_snoc, h5]
      simp [lScore, hj]

theorem entries_gpath {n : Nat} {es : List (Entry F)} :
    ∀ (path : List (Entry F)) (p : Nat), (∀ e ∈ path, e ∈ es) → Contiguous 0 path p →
      ∃ ks, GPath (lBegins n es) (lEnds es) p ks ∧ ks.map (fun k => es[k - 2]?) = path.map some ∧
        pathScore (lScore es) ks = entriesScore path := by
  have key : ∀ (m : Nat) (path : List (Entry F)) (p : Nat), path.length = m → (∀ e ∈ path, e ∈ es) → Contiguous 0 path p →
      ∃ ks, GPath (lBegins n es) (lEnds es) p ks ∧ ks.map (fun k => es[k - 2]?) = path.map some ∧
        pathScore (lScore es) ks = entriesScore path := by
    intro m
    induction m with
    | zero =>
      intro path p hl h1 h2
      have : path = [] := List.length_eq_zero_iff.1 hl
      subst this
      have : 0 = p := h2
      subst this
      exact ⟨[], .nil, rfl, rfl⟩
    | succ m ih =>
      intro path p hl h1 h2
      obtain ⟨path', e, rfl⟩ : ∃ l a, path = l ++ [a] := by
        have hne : path ≠ [] := by intro e; subst e; simp at hl
        exact ⟨path.dropLast, path.getLast hne, (List.dropLast_concat_getLast hne).symm⟩
      rw [contiguous_snoc] at h2
      obtain ⟨ks, h3, h4, h5⟩ := ih path' e.pos (by simpa using hl) (fun x hx => h1 x (by simp [hx])) h2.1
      obtain ⟨j, hj⟩ := List.getElem?_of_mem (h1 e (by simp))
      refine ⟨ks ++ [j + 2], .snoc h3 (mem_lBegins.2 (.inr ⟨j, e, rfl, hj, rfl⟩))
        (mem_lEnds.2 (.inr ⟨j, e, rfl, hj, h2.2⟩)), by simp [h4, hj], ?_⟩
      rw [pathScore_snoc, entriesScore_snoc, h5]
      simp [lScore, hj]
  exact fun path p => key _ path p rfl

omit [ScoreOps F] in
theorem connected_iff {n : Nat} {es : List (Entry F)} (h : Inside n es) :
    Connected n (lBegins n es) (lEnds es) ↔ NoGaps n es := by
  have hb : ∀ p, lBegins n es p ≠ [] ↔ (p = n ∨ ∃ e ∈ es, e.pos = p) := by
    intro p
    constructor
    · intro hp
      obtain ⟨r, hr⟩ := List.exists_mem_of_ne_nil _ hp
      rcases mem_lBegins.1 hr with ⟨_, h⟩ | ⟨j, e, _, hj, he⟩
      · exact .inl h
      · exact .inr ⟨e, List.mem_of_getElem? hj, he⟩
    · rintro (h | ⟨e, he, hp⟩)
      · exact List.ne_nil_of_mem (mem_lBegins.2 (.inl ⟨rfl, h⟩))
      · obtain ⟨j, hj⟩ := List.getElem?_of_mem he
        exact List.ne_nil_of_mem (mem_lBegins.2 (.inr ⟨j, e, rfl, hj, hp⟩))
  have he : ∀ p, lEnds es p ≠ [] ↔ (p = 0 ∨ ∃ e ∈ es, e.pos + e.len = p) := by
    intro p
    constructor
    · intro hp
      obtain ⟨r, hr⟩ := List.exists_mem_of_ne_nil _ hp
      rcases mem_lEnds.1 hr with ⟨_, h⟩ | ⟨j, e, _, hj, he⟩
      · exact .inl h
      · exact .inr ⟨e, List.mem_of_getElem? hj, he⟩
    · rintro (h | ⟨e, he, hp⟩)
      · exact List.ne_nil_of_mem (mem_lEnds.2 (.inl ⟨rfl, h⟩))
      · obtain ⟨j, hj⟩ := List.getElem?_of_mem he
        exact List.ne_nil_of_mem (mem_lEnds.2 (.inr ⟨j, e, rfl, hj, hp⟩))
  unfold Connected NoGaps
  constructor
  · intro hc p hp
    have hle : p ≤ n := by
      rcases hp with rfl | ⟨e, hm, rfl⟩
      · exact Nat.le_refl _
      · have := h e hm; omega
    exact (he p).1 (hc p hle ((hb p).2 hp))
  · intro hn p _ hbp
    exact (he p).2 (hn p ((hb p).1 hbp))

/-- The node `viterbi` returns for entry number `k - 2`: its token fields. -/
theorem filledNode_entry {sentence : List UInt8} {es : List (Entry F)} {V : Nat → Option Nat × F} {j : Nat} {e : Entry F}
    (h : es[j]? = some e) : (filledNode sentence es V (j + 2)).pos = e.pos ∧
      (filledNode sentence es V (j + 2)).tokenId = e.id ∧ (filledNode sentence es V (j + 2)).tokenLen = e.len ∧
      (filledNode sentence es V (j + 2)).score = e.score := by
  have : (latticeOf sentence es).nodes[j + 2]? = some (LNode.new e.pos e.id e.len e.score) := by
    simp [latticeOf, h]
  unfold filledNode
  rw [List.getD_eq_getElem?_getD, this]
  exact ⟨rfl, rfl, rfl, rfl⟩

theorem filledNode_eos {sentence : List UInt8} {es : List (Entry F)} {V : Nat → Option Nat × F} :
    (filledNode sentence es V 1).pos = sentence.length ∧ (filledNode sentence es V 1).tokenId = 4294967295 ∧
    (filledNode sentence es V 1).tokenLen = 0 ∧ (filledNode sentence es V 1).score = zero := by
  unfold filledNode
  simp [latticeOf, LNode.new]

end Tokengeex

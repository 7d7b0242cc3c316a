import Verif.Model.CostLattice
import Verif.Proofs.Cost
import Verif.Spec.Lattice
import Mathlib.Data.List.Perm.Subperm
import Mathlib.Data.List.ProdSigma
/-
The counters of Model/CostLattice.lean, bounded.
-/
namespace Tokengeex
namespace Cost

theorem andThen_fst {α β : Type} {x : Res α × Nat} {f : α → Res β × Nat} {y : Res α} {g : α → Res β} (hx : x.1 = y)
    (h : ∀ a, y = .ok a → (f a).1 = g a) : (andThen x f).1 = (y >>= g) := by
  subst hx
  unfold andThen
  cases hx : x.1 with
  | error e => rfl
  | ok a => exact h a hx

theorem andThen_snd {α β : Type} {x : Res α × Nat} {f : α → Res β × Nat} {j k : Nat} (hx : x.2 ≤ j)
    (h : ∀ a, x.1 = .ok a → (f a).2 ≤ k) : (andThen x f).2 ≤ j + k := by
  unfold andThen
  cases hx : x.1 with
  | error e => dsimp only; omega
  | ok a => have := h a hx; dsimp only; omega

theorem foldCost_fst {α σ : Type} {f : σ → α → Res σ × Nat} {g : σ → α → Res σ} : ∀ {l : List α} {s : σ},
    (∀ s, ∀ a ∈ l, (f s a).1 = g s a) → (foldCost f l s).1 = l.foldlM g s := by
  intro l
  induction l with
  | nil => intro s _; rfl
  | cons a l ih =>
    intro s h
    rw [foldCost, List.foldlM_cons]
    exact andThen_fst (h s a List.mem_cons_self) fun s' _ => ih fun s b hb => h s b (List.mem_cons_of_mem _ hb)

theorem foldCost_snd {α σ : Type} {f : σ → α → Res σ × Nat} {c : Nat} : ∀ {l : List α} {s : σ},
    (∀ s, ∀ a ∈ l, (f s a).2 ≤ c) → (foldCost f l s).2 ≤ l.length * c := by
  intro l
  induction l with
  | nil => intro s _; simp [foldCost]
  | cons a l ih =>
    intro s h
    rw [foldCost, List.length_cons, Nat.succ_mul, Nat.add_comm]
    exact andThen_snd (h s a List.mem_cons_self) fun s' _ => ih fun s b hb => h s b (List.mem_cons_of_mem _ hb)

theorem idx_mem {α : Type} {l : List α} {i : Nat} {a : α} (h : idx l i = .ok a) : a ∈ l := by
  unfold idx at h
  cases hi : l[i]? with
  | none => rw [hi] at h; cases h
  | some b => rw [hi] at h; cases h; exact List.mem_of_getElem? hi

section
variable {F : Type} [RealOps F]

theorem accPos_fst (nodes : List (LNode F)) (targets sources : List Nat) (table : List F) :
    (accPos nodes targets sources table).1 = Lattice.accPos nodes targets sources table := by
  unfold accPos Lattice.accPos
  refine foldCost_fst fun table target _ => ?_
  exact (andThen_fst (y := .ok ()) (g := fun _ => _) rfl fun _ _ => foldCost_fst fun _ _ _ => rfl)

theorem accPos_snd (nodes : List (LNode F)) (targets sources : List Nat) (table : List F) :
    (accPos nodes targets sources table).2 ≤ targets.length * (1 + sources.length) := by
  unfold accPos
  refine foldCost_snd fun table target _ => ?_
  refine andThen_snd (Nat.le_refl _) fun _ _ => ?_
  have := foldCost_snd (c := 1) (f := fun table source => (Lattice.accSource nodes sources target table source, 1))
    (l := sources) (s := table) fun _ _ _ => Nat.le_refl _
  omega

theorem forwardTable_fst (l : Lattice F) : (forwardTable l).1 = l.forwardTable := by
  unfold forwardTable Lattice.forwardTable
  refine (andThen_fst (y := .ok ()) (g := fun _ => _) rfl fun _ _ => foldCost_fst fun table pos _ => ?_)
  exact andThen_fst rfl fun b _ => andThen_fst rfl fun e _ => accPos_fst ..

theorem backwardTable_fst (l : Lattice F) : (backwardTable l).1 = l.backwardTable := by
  unfold backwardTable Lattice.backwardTable
  refine (andThen_fst (y := .ok ()) (g := fun _ => _) rfl fun _ _ => foldCost_fst fun table pos _ => ?_)
  exact andThen_fst rfl fun b _ => andThen_fst rfl fun e _ => accPos_fst ..

theorem populateMarginal_fst (l : Lattice F) (expected : List F) : (populateMarginal l expected).1 = l.populateMarginal expected := by
  unfold populateMarginal Lattice.populateMarginal
  refine andThen_fst (forwardTable_fst l) fun alpha _ => andThen_fst (backwardTable_fst l) fun beta _ =>
    andThen_fst rfl fun z _ => andThen_fst ?_ fun ex _ => rfl
  exact foldCost_fst fun _ pos _ => andThen_fst rfl fun b _ => foldCost_fst fun _ _ _ => rfl

/-- No position has more than `w` nodes that begin there, nor more than `w` that end there. -/
def Narrow (l : Lattice F) (w : Nat) : Prop := (∀ b ∈ l.beginNodes, b.length ≤ w) ∧ ∀ e ∈ l.endNodes, e.length ≤ w

theorem forwardTable_snd {l : Lattice F} {w : Nat} (h : Narrow l w) :
    (forwardTable l).2 ≤ l.nodes.length + (l.sentence.length + 1) * (1 + w * (1 + w)) := by
  unfold forwardTable
  refine andThen_snd (Nat.le_refl _) fun _ _ => ?_
  refine le_trans (foldCost_snd (c := 1 + w * (1 + w)) fun table pos _ => ?_) (by rw [List.length_range])
  refine andThen_snd (Nat.le_refl _) fun b hb => ?_
  refine le_trans (andThen_snd (Nat.le_refl 0) (k := w * (1 + w)) fun e he => ?_) (by omega)
  have h1 := h.1 _ (idx_mem hb)
  have h2 := h.2 _ (idx_mem he)
  exact le_trans (accPos_snd ..) (Nat.mul_le_mul h1 (by omega))

theorem backwardTable_snd {l : Lattice F} {w : Nat} (h : Narrow l w) :
    (backwardTable l).2 ≤ l.nodes.length + (l.sentence.length + 1) * (1 + w * (1 + w)) := by
  unfold backwardTable
  refine andThen_snd (Nat.le_refl _) fun _ _ => ?_
  refine le_trans (foldCost_snd (c := 1 + w * (1 + w)) fun table pos _ => ?_) (by rw [List.length_reverse, List.length_range])
  refine andThen_snd (Nat.le_refl _) fun b hb => ?_
  refine le_trans (andThen_snd (Nat.le_refl 0) (k := w * (1 + w)) fun e he => ?_) (by omega)
  have h1 := h.1 _ (idx_mem hb)
  have h2 := h.2 _ (idx_mem he)
  exact le_trans (accPos_snd ..) (Nat.mul_le_mul h2 (by omega))

theorem populateMarginal_snd {l : Lattice F} {w : Nat} (h : Narrow l w) (expected : List F) :
    (populateMarginal l expected).2 ≤
      2 * (l.nodes.length + (l.sentence.length + 1) * (1 + w * (1 + w))) + (1 + l.sentence.length * (1 + w)) := by
  unfold populateMarginal
  have h1 := forwardTable_snd h
  have h2 := backwardTable_snd h
  refine le_trans (andThen_snd h1 fun alpha _ => andThen_snd h2 fun beta _ => andThen_snd (Nat.le_refl 1) fun z _ =>
    andThen_snd (j := l.sentence.length * (1 + w)) ?_ fun ex _ => Nat.le_refl 0) (by omega)
  refine le_trans (foldCost_snd (c := 1 + w) fun _ pos _ => ?_) (by rw [List.length_range])
  refine andThen_snd (Nat.le_refl _) fun b hb => ?_
  refine le_trans (foldCost_snd (c := 1) fun _ _ _ => Nat.le_refl _) ?_
  have := h.1 _ (idx_mem hb)
  omega
end

section
variable {F : Type} [ScoreOps F]

theorem populateNodes_fst (m : Model F) (l : Lattice F) (dropout : F) (rnd : Nat → F) :
    (populateNodes m l dropout rnd).1 = m.populateNodes l dropout rnd := by
  unfold populateNodes Model.populateNodes
  refine foldCost_fst fun st pos _ => ?_
  exact andThen_fst (y := .ok ()) (g := fun _ => _) rfl fun _ _ => foldCost_fst fun _ _ _ => rfl

theorem populateNodes_snd {m : Model F} {longest : Nat} (hd : TNode.DepthLe longest m.trie)
    (hc : ∀ s, (m.commonPrefixSearch s).length ≤ longest) (l : Lattice F) (dropout : F) (rnd : Nat → F) :
    (populateNodes m l dropout rnd).2 ≤ (2 * longest + 2) * l.sentence.length := by
  unfold populateNodes
  refine le_trans (foldCost_snd (c := 2 * longest + 2) fun st pos _ => ?_) (by rw [List.length_range, Nat.mul_comm])
  refine le_trans (andThen_snd (j := longest + 2) (k := longest) ?_ fun _ _ => ?_) (by omega)
  · have := drainTicks_le ((l.sentence.drop pos).length + 1) ⟨m.trie, [], l.sentence.drop pos⟩ longest hd
    dsimp only
    omega
  · refine le_trans (foldCost_snd (c := 1) fun _ _ _ => Nat.le_refl _) ?_
    have := hc (l.sentence.drop pos)
    omega

theorem bestPrev_fst (nodes : List (LNode F)) (x : F) : ∀ (ends : List Nat) (st : Option Nat × F),
    (bestPrev nodes x ends st).1 = Lattice.bestPrev nodes x ends st := by
  intro ends
  induction ends with
  | nil => intro st; rfl
  | cons a ends ih =>
    intro st
    rw [bestPrev, Lattice.bestPrev]
    refine andThen_fst rfl fun ln _ => ?_
    dsimp only
    split
    · exact ih _
    · exact ih _

theorem bestPrev_snd (nodes : List (LNode F)) (x : F) : ∀ (ends : List Nat) (st : Option Nat × F),
    (bestPrev nodes x ends st).2 ≤ ends.length := by
  intro ends
  induction ends with
  | nil => intro st; exact Nat.le_refl _
  | cons a ends ih =>
    intro st
    rw [bestPrev, List.length_cons, Nat.add_comm]
    refine andThen_snd (Nat.le_refl _) fun ln _ => ?_
    dsimp only
    split
    · exact ih _
    · exact ih _

theorem viterbiNodes_fst (ends : List Nat) : ∀ (begins : List Nat) (nodes : List (LNode F)),
    (viterbiNodes ends begins nodes).1 = Lattice.viterbiNodes ends begins nodes := by
  intro begins
  induction begins with
  | nil => intro nodes; rfl
  | cons r begins ih =>
    intro nodes
    rw [viterbiNodes, Lattice.viterbiNodes]
    refine andThen_fst rfl fun rn _ => andThen_fst rfl fun nodes' _ => andThen_fst (bestPrev_fst ..) fun best _ => ?_
    cases best.1 with
    | none => rfl
    | some b => exact andThen_fst rfl fun nodes'' _ => ih _

theorem viterbiNodes_snd (ends : List Nat) : ∀ (begins : List Nat) (nodes : List (LNode F)),
    (viterbiNodes ends begins nodes).2 ≤ begins.length * (1 + ends.length) := by
  intro begins
  induction begins with
  | nil => intro nodes; simp [viterbiNodes]
  | cons r begins ih =>
    intro nodes
    rw [viterbiNodes, List.length_cons, Nat.succ_mul]
    refine le_trans (andThen_snd (Nat.le_refl 1) fun rn _ => andThen_snd (Nat.le_refl 0) fun nodes' _ =>
      andThen_snd (bestPrev_snd ..) (k := begins.length * (1 + ends.length)) fun best _ => ?_) (by omega)
    cases best.1 with
    | none => exact Nat.zero_le _
    | some b => exact le_trans (andThen_snd (Nat.le_refl 0) fun nodes'' _ => ih _) (by omega)

theorem viterbiLoop_fst (l : Lattice F) : ∀ (ps : List Nat) (nodes : List (LNode F)),
    (viterbiLoop l ps nodes).1 = Lattice.viterbiLoop l ps nodes := by
  intro ps
  induction ps with
  | nil => intro nodes; rfl
  | cons r ps ih =>
    intro nodes
    rw [viterbiLoop, Lattice.viterbiLoop]
    refine andThen_fst rfl fun b _ => andThen_fst rfl fun e _ => andThen_fst (viterbiNodes_fst ..) fun r _ => ?_
    split
    · exact ih _
    · rfl

theorem viterbiLoop_snd {l : Lattice F} {w : Nat} (h : Narrow l w) : ∀ (ps : List Nat) (nodes : List (LNode F)),
    (viterbiLoop l ps nodes).2 ≤ ps.length * (1 + w * (1 + w)) := by
  intro ps
  induction ps with
  | nil => intro nodes; simp [viterbiLoop]
  | cons r ps ih =>
    intro nodes
    rw [viterbiLoop, List.length_cons, Nat.succ_mul]
    refine le_trans (andThen_snd (Nat.le_refl _) fun b hb => andThen_snd (Nat.le_refl 0) fun e he =>
      andThen_snd (j := w * (1 + w)) ?_ (k := ps.length * (1 + w * (1 + w))) fun r _ => ?_) (by omega)
    · have h1 := h.1 _ (idx_mem hb)
      have h2 := h.2 _ (idx_mem he)
      exact le_trans (viterbiNodes_snd ..) (Nat.mul_le_mul h1 (by omega))
    · split
      · exact ih _
      · exact Nat.zero_le _

omit [ScoreOps F] in
theorem backtrackNodes_fst (nodes : List (LNode F)) : ∀ (fuel i : Nat) (acc : List (LNode F)),
    (backtrackNodes nodes fuel i acc).1 = Lattice.backtrackNodes nodes fuel i acc := by
  intro fuel
  induction fuel with
  | zero => intro i acc; rfl
  | succ fuel ih =>
    intro i acc
    rw [backtrackNodes, Lattice.backtrackNodes]
    refine andThen_fst rfl fun node _ => ?_
    cases node.prev with
    | none => rfl
    | some p => exact ih _ _

omit [ScoreOps F] in
theorem backtrackNodes_snd (nodes : List (LNode F)) : ∀ (fuel i : Nat) (acc : List (LNode F)),
    (backtrackNodes nodes fuel i acc).2 ≤ 2 * fuel := by
  intro fuel
  induction fuel with
  | zero => intro i acc; exact Nat.le_refl _
  | succ fuel ih =>
    intro i acc
    rw [backtrackNodes]
    refine le_trans (andThen_snd (Nat.le_refl _) (k := 2 * fuel) fun node _ => ?_) (by omega)
    cases node.prev with
    | none => exact Nat.zero_le _
    | some p => exact ih _ _

theorem viterbi_fst (l : Lattice F) : (viterbi l).1 = l.viterbi := by
  unfold viterbi Lattice.viterbi
  refine andThen_fst (viterbiLoop_fst ..) fun r _ => ?_
  dsimp only
  split
  · exact andThen_fst rfl fun last _ => andThen_fst rfl fun eos _ => andThen_fst (backtrackNodes_fst ..) fun path _ => rfl
  · rfl

theorem viterbiNodes_length (ends : List Nat) : ∀ (begins : List Nat) (nodes : List (LNode F)) (r : List (LNode F) × Bool),
    Lattice.viterbiNodes ends begins nodes = .ok r → r.1.length = nodes.length := by
  intro begins
  have set_length : ∀ {l l' : List (LNode F)} {i : Nat} {x : LNode F}, setIdx l i x = .ok l' → l'.length = l.length := by
    intro l l' i x h
    unfold setIdx at h
    split at h
    · cases h; simp
    · cases h
  induction begins with
  | nil => intro nodes r h; cases h; rfl
  | cons a begins ih =>
    intro nodes r h
    rw [Lattice.viterbiNodes] at h
    cases h1 : idx nodes a with
    | error e => rw [h1] at h; cases h
    | ok rn =>
      rw [h1] at h
      replace h : ((setIdx nodes a { rn with prev := none }) >>= fun nodes => do
        let best ← Lattice.bestPrev nodes rn.score ends (none, ScoreOps.zero)
        match best.1 with
        | none => .ok (nodes, false)
        | some b => do
          let nodes ← setIdx nodes a { rn with prev := some b, backtrack := best.2 }
          Lattice.viterbiNodes ends begins nodes) = .ok r := h
      cases h2 : setIdx nodes a { rn with prev := none } with
      | error e => rw [h2] at h; cases h
      | ok nodes' =>
        rw [h2] at h
        replace h : ((Lattice.bestPrev nodes' rn.score ends (none, ScoreOps.zero)) >>= fun best =>
          match best.1 with
          | none => .ok (nodes', false)
          | some b => do
            let nodes ← setIdx nodes' a { rn with prev := some b, backtrack := best.2 }
            Lattice.viterbiNodes ends begins nodes) = .ok r := h
        cases h3 : Lattice.bestPrev nodes' rn.score ends (none, ScoreOps.zero) with
        | error e => rw [h3] at h; cases h
        | ok best =>
          rw [h3] at h
          obtain ⟨best1, best2⟩ := best
          cases best1 with
          | none => cases h; exact set_length h2
          | some b =>
            replace h : ((setIdx nodes' a { rn with prev := some b, backtrack := best2 }) >>= fun nodes =>
              Lattice.viterbiNodes ends begins nodes) = .ok r := h
            cases h4 : setIdx nodes' a { rn with prev := some b, backtrack := best2 } with
            | error e => rw [h4] at h; cases h
            | ok nodes'' =>
              rw [h4] at h
              rw [ih nodes'' r h, set_length h4, set_length h2]

theorem viterbiLoop_length (l : Lattice F) : ∀ (ps : List Nat) (nodes : List (LNode F)) (r : List (LNode F) × Bool),
    Lattice.viterbiLoop l ps nodes = .ok r → r.1.length = nodes.length := by
  intro ps
  induction ps with
  | nil => intro nodes r h; cases h; rfl
  | cons p ps ih =>
    intro nodes r h
    rw [Lattice.viterbiLoop] at h
    cases h1 : idx l.beginNodes p with
    | error e => rw [h1] at h; cases h
    | ok b =>
      rw [h1] at h
      cases h2 : idx l.endNodes p with
      | error e => rw [h2] at h; cases h
      | ok e =>
        rw [h2] at h
        cases h3 : Lattice.viterbiNodes e b nodes with
        | error x => simp [h3, bind, Except.bind] at h
        | ok r' =>
          simp only [h3, bind, Except.bind] at h
          have := viterbiNodes_length _ _ _ _ h3
          split at h
          · rw [ih _ _ h, this]
          · cases h; exact this

theorem viterbi_snd {l : Lattice F} {w : Nat} (h : Narrow l w) :
    (viterbi l).2 ≤ (l.sentence.length + 1) * (1 + w * (1 + w)) + (1 + 2 * (l.sentence.length + l.nodes.length + 2)) := by
  unfold viterbi
  have h1 := viterbiLoop_snd h (List.range (l.sentence.length + 1)) l.nodes
  rw [List.length_range] at h1
  refine andThen_snd h1 fun r hr => ?_
  rw [viterbiLoop_fst] at hr
  have hlen := viterbiLoop_length _ _ _ _ hr
  dsimp only
  split
  · refine andThen_snd (Nat.le_refl 1) fun last _ => ?_
    refine le_trans (andThen_snd (Nat.le_refl 0) fun eos _ => andThen_snd (backtrackNodes_snd ..) fun path _ => Nat.le_refl 0) ?_
    rw [hlen]
    omega
  · exact Nat.zero_le _

end
end Cost

/-! ## Lattices of sentences -/

open Spec

section
variable {F : Type} [ScoreOps F]

omit [ScoreOps F] in
theorem nodesWhere_length (c : Entry F → Bool) (es : List (Entry F)) : (nodesWhere c es).length = (es.filter c).length := by
  unfold nodesWhere
  generalize 2 = k
  induction es generalizing k with
  | nil => rfl
  | cons e es ih =>
    rw [List.zipIdx_cons, List.filterMap_cons, List.filter_cons]
    by_cases h : c e = true
    · simp only [h, if_true, List.length_cons, ih]
    · simp only [h, Bool.false_eq_true, if_false, ih]

/-- The tokens of a sentence that are short: at most one for each position and length. -/
def Short (n longest : Nat) (es : List (Entry F)) : Prop :=
  (∀ e ∈ es, 0 < e.len ∧ e.len ≤ longest ∧ e.pos < n) ∧ es.Pairwise (fun a b => ¬ (a.pos = b.pos ∧ a.len = b.len))

omit [ScoreOps F] in
theorem length_le_of_lens {longest : Nat} {es : List (Entry F)} (h : ∀ e ∈ es, 0 < e.len ∧ e.len ≤ longest)
    (hp : es.Pairwise (fun a b => a.len ≠ b.len)) : es.length ≤ longest := by
  have hnd : (es.map (·.len)).Nodup := List.pairwise_map.2 hp
  have hsub : es.map (·.len) ⊆ (List.range longest).map (· + 1) := by
    intro x hx
    obtain ⟨e, he, rfl⟩ := List.mem_map.1 hx
    have := h e he
    exact List.mem_map.2 ⟨e.len - 1, List.mem_range.2 (by omega), by omega⟩
  have := (hnd.subperm hsub).length_le
  simpa using this

omit [ScoreOps F] in
theorem Short.begins {n longest : Nat} {es : List (Entry F)} (h : Short n longest es) (p : Nat) :
    (nodesWhere (fun e => e.pos == p) es).length ≤ longest := by
  rw [nodesWhere_length]
  refine length_le_of_lens (fun e he => ?_) ?_
  · have := h.1 e (List.mem_of_mem_filter he); exact ⟨this.1, this.2.1⟩
  · refine (List.Pairwise.and_mem.1 (h.2.sublist List.filter_sublist)).imp ?_
    rintro a b ⟨ha, hb, hab⟩ e
    have h1 := (List.mem_filter.1 ha).2
    have h2 := (List.mem_filter.1 hb).2
    simp only [beq_iff_eq] at h1 h2
    exact hab ⟨by omega, e⟩

omit [ScoreOps F] in
theorem Short.ends {n longest : Nat} {es : List (Entry F)} (h : Short n longest es) (p : Nat) :
    (nodesWhere (fun e => e.pos + e.len == p) es).length ≤ longest := by
  rw [nodesWhere_length]
  refine length_le_of_lens (fun e he => ?_) ?_
  · have := h.1 e (List.mem_of_mem_filter he); exact ⟨this.1, this.2.1⟩
  · refine (List.Pairwise.and_mem.1 (h.2.sublist List.filter_sublist)).imp ?_
    rintro a b ⟨ha, hb, hab⟩ e
    have h1 := (List.mem_filter.1 ha).2
    have h2 := (List.mem_filter.1 hb).2
    simp only [beq_iff_eq] at h1 h2
    exact hab ⟨by omega, e⟩

omit [ScoreOps F] in
theorem Short.length {n longest : Nat} {es : List (Entry F)} (h : Short n longest es) : es.length ≤ n * longest := by
  have hnd : (es.map fun e => (e.pos, e.len)).Nodup := by
    refine List.pairwise_map.2 (h.2.imp ?_)
    intro a b hab e
    simp only [Prod.mk.injEq] at e
    exact hab e
  have hsub : (es.map fun e => (e.pos, e.len)) ⊆ (List.range n).product ((List.range longest).map (· + 1)) := by
    intro x hx
    obtain ⟨e, he, rfl⟩ := List.mem_map.1 hx
    have := h.1 e he
    exact List.pair_mem_product.2 ⟨List.mem_range.2 this.2.2, List.mem_map.2 ⟨e.len - 1, List.mem_range.2 (by omega), by omega⟩⟩
  have h1 := (hnd.subperm hsub).length_le
  have h2 := List.length_product (List.range n) ((List.range longest).map (· + 1))
  rw [List.length_map] at h1
  rw [List.length_map, List.length_range, List.length_range] at h2
  exact le_trans h1 (le_of_eq h2)

theorem Short.narrow {longest : Nat} {sentence : List UInt8} {es : List (Entry F)} (h : Short sentence.length longest es) :
    Cost.Narrow (latticeOf sentence es) (longest + 1) := by
  constructor
  · intro b hb
    obtain ⟨p, _, rfl⟩ := List.mem_map.1 hb
    have := h.begins p
    rw [List.length_append]
    split <;> simp only [List.length_cons, List.length_nil] <;> omega
  · intro b hb
    obtain ⟨p, _, rfl⟩ := List.mem_map.1 hb
    have := h.ends p
    rw [List.length_append]
    split <;> simp only [List.length_cons, List.length_nil] <;> omega

end
end Tokengeex

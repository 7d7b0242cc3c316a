import Verif.Proofs.NBest3
/-
When the first result of `nbest` is a single token.
-/
namespace Tokengeex
open Spec ScoreOps

variable {F : Type} [ScoreOps F]

namespace Lattice
variable {heap : Heap F} {ok : List (Hypo F) → Prop} {S : Hypo F → Prop}
variable {l : Lattice F} {len size : Nat} {begins ends : Nat → List Nat} {node : Nat → LNode F}

/-- Results are only appended. -/
theorem nbestLoop_prefix {n : Nat} : ∀ (fuel : Nat) (a : List (Hypo F)) (found res : List (List Nat)),
    nbestLoop heap l n fuel a found = .ok res → found <+: res := by
  intro fuel
  induction fuel with
  | zero => intro a found res h; cases h
  | succ fuel ih =>
    intro a found res h
    rw [nbestLoop] at h
    cases hp : heap.pop a with
    | none => rw [hp] at h; cases h; exact List.prefix_rfl
    | some r =>
      obtain ⟨top, rest⟩ := r
      rw [hp] at h
      simp only at h
      obtain ⟨x, _, h⟩ := bind_ok h
      obtain ⟨b, _, h⟩ := bind_ok h
      by_cases hx : x.tokenId = b.tokenId
      · rw [if_pos hx] at h
        cases hk : top.next with
        | nil => rw [hk] at h; cases h
        | cons k ks =>
          rw [hk] at h
          simp only at h
          split at h
          · cases h; exact List.prefix_append _ _
          · exact (List.prefix_append _ _).trans (ih _ _ _ h)
      · rw [if_neg hx] at h
        obtain ⟨a', _, h⟩ := bind_ok h
        exact ih _ _ _ h

theorem pop_max (hl : HeapLawsOn heap ok S) (hmax : HeapMax heap ok) {a : List (Hypo F)} (ha : ok a) {x : Hypo F} {rest : List (Hypo F)}
    (hp : a.Perm (x :: rest)) (hx : ∀ y ∈ rest, lt y.fx x.fx = true) :
    ∃ rest', heap.pop a = some (x, rest') ∧ ok rest' ∧ rest'.Perm rest := by
  cases h : heap.pop a with
  | none => rw [hl.pop_none ha h] at hp; exact absurd hp.length_eq (by simp)
  | some r =>
    obtain ⟨y, rest'⟩ := r
    obtain ⟨h1, h2⟩ := hl.pop_some ha h
    have hm := hmax ha h x (hp.symm.subset (List.mem_cons_self ..))
    rcases List.mem_cons.1 (hp.subset (h2.symm.subset (List.mem_cons_self ..))) with rfl | hy
    · exact ⟨rest', rfl, h1, (List.perm_cons _).1 (h2.symm.trans hp)⟩
    · rw [hx y hy] at hm; cases hm

theorem first_found (hl : HeapLawsOn heap ok S) (hmax : HeapMax heap ok) (g : NGraph l len size begins ends node) {n : Nat} (hn : 2 ≤ n)
    {j : Nat} (hj : j ∈ ends len) (hj0 : j ∈ begins 0)
    {a : List (Hypo F)} (ha : ok a) {h : Hypo F} (hperm : a.Perm [h]) (hh : h.node = 1) (hnext : h.next = [])
    (hS1 : ∀ k ∈ ends len, S (child node h k)) (hS2 : S (child node (child node h j) 0)) (hfew : (ends len).length ≤ maxAgenda)
    (h1 : ∀ k ∈ ends len, k ≠ j → lt (child node h k).fx (child node h j).fx = true)
    (h2 : ∀ k ∈ ends len, k ≠ j → lt (child node h k).fx (child node (child node h j) 0).fx = true) :
    ∃ rest, ∀ fuel, nbestLoop heap l n (fuel + 3) a [] = nbestLoop heap l n fuel rest [[j]] := by
  have hs1 : 1 < size := g.size_pos
  have hs0 : 0 < size := by omega
  have hjs := g.graph.end_lt hj
  have hjne : j ≠ 0 := by rintro rfl; exact g.graph.bos 0 hj0
  have p1 : (node 1).pos = len := g.graph.begin_inj (g.pos 1 hs1 (by omega)) g.graph.eos
  have pj : (node j).pos = 0 := g.graph.begin_inj (g.pos j hjs hjne) hj0
  have e0 : ends 0 = [0] := by
    have hall : ∀ x ∈ ends 0, x = 0 := by
      intro x hx
      rcases g.graph.ends_from hx with ⟨h, _⟩ | ⟨q, hq, _⟩
      · exact h
      · omega
    have hnd := g.ends_nodup 0
    have hm := g.graph.bos_end
    match he : ends 0, hall, hnd, hm with
    | [], _, _, hm => cases hm
    | [x], hall, _, _ => rw [hall x (by simp)]
    | x :: y :: r, hall, hnd, _ =>
      rw [hall x (by simp), hall y (by simp)] at hnd
      simp at hnd
  -- the end of the sentence
  obtain ⟨r0, q1, q2, q3⟩ := pop_max hl hmax ha hperm (by simp)
  have hr0 : r0 = [] := List.perm_nil.1 q3
  subst hr0
  have n1 : ¬ (node 1).tokenId = (node 0).tokenId := fun e => by have := g.bosId 1 hs1 e; omega
  have nj : ¬ (node j).tokenId = (node 0).tokenId := fun e => hjne (g.bosId j hjs e)
  obtain ⟨a1, d1, x1, x2, x3, _, x5⟩ := expandShrink_ok (n := n) (pos := (node 1).pos) (ends := ends len) hl g.nodes h
    (by rw [p1]; exact g.endNodes len (Nat.le_refl _)) (fun k hk => g.graph.end_lt hk) hS1 q2
  have hd1 : d1 = [] := by
    rcases x5 with x5 | ⟨_, x5⟩
    · exact x5
    · simp only [List.append_nil, List.length_map] at x5; omega
  subst hd1
  rw [List.append_nil, List.append_nil] at x3
  -- the token
  have hsplit : a1.Perm (child node h j :: ((ends len).erase j).map (child node h)) :=
    x3.symm.trans ((List.perm_cons_erase hj).map (child node h))
  obtain ⟨r1, y1, y2, y3⟩ := pop_max hl hmax x2 hsplit (by
    intro y hy
    obtain ⟨k, hk, rfl⟩ := List.mem_map.1 hy
    exact h1 k (List.mem_of_mem_erase hk) (by rintro rfl; exact (g.ends_nodup len).not_mem_erase hk))
  obtain ⟨a2, d2, z1, z2, z3, _, z5⟩ := expandShrink_ok (n := n) (pos := (node j).pos) (ends := [0]) hl g.nodes (child node h j)
    (by rw [pj, ← e0]; exact g.endNodes 0 (Nat.zero_le _)) (by simpa using hs0) (by simpa using hS2) y2
  have hd2 : d2 = [] := by
    rcases z5 with z5 | ⟨_, z5⟩
    · exact z5
    · have := y3.length_eq
      have hp := List.length_pos_of_mem hj
      simp only [List.map_cons, List.map_nil, List.singleton_append, List.length_cons, List.length_map, List.length_erase_of_mem hj] at z5 this
      omega
  subst hd2
  simp only [List.append_nil, List.map_cons, List.map_nil, List.singleton_append] at z3
  -- the beginning of the sentence
  obtain ⟨r2, w1, w2, w3⟩ := pop_max hl hmax z2 z3.symm (by
    intro y hy
    obtain ⟨k, hk, rfl⟩ := List.mem_map.1 (y3.subset hy)
    exact h2 k (List.mem_of_mem_erase hk) (by rintro rfl; exact (g.ends_nodup len).not_mem_erase hk))
  refine ⟨r2, fun fuel => ?_⟩
  rw [nbestLoop, q1]
  simp only
  rw [hh, idx_of_getElem? (g.nodes 1 hs1), g.bosIdx, idx_of_getElem? (g.nodes 0 hs0)]
  simp only [res_bind_ok]
  rw [if_neg n1, x1]
  simp only [res_bind_ok]
  rw [nbestLoop, y1]
  simp only [child]
  rw [idx_of_getElem? (g.nodes j hjs), g.bosIdx, idx_of_getElem? (g.nodes 0 hs0)]
  simp only [res_bind_ok]
  rw [if_neg nj]
  have z1' := z1
  simp only [child] at z1'
  rw [z1']
  simp only [res_bind_ok]
  rw [nbestLoop, w1]
  simp only [child]
  rw [g.bosIdx, idx_of_getElem? (g.nodes 0 hs0)]
  simp only [res_bind_ok, if_true]
  rw [hnext, hh]
  simp only [List.dropLast, List.nil_append, List.length_singleton]
  rw [if_neg (by omega)]

end Lattice
end Tokengeex

import Verif.Proofs.NBest3
/-
`Lattice::nbest` with rounded sums: how far the results can be from the best ones.
-/
namespace Tokengeex
open Spec ScoreOps

variable {F : Type} [ScoreOps F]

namespace Lattice
variable {heap : Heap F} {ok : List (Hypo F) → Prop}
variable {l : Lattice F} {len size : Nat} {begins ends : Nat → List Nat} {node : Nat → LNode F}
variable {val : F → ℝ} {fin : F → Prop} {w bt : Nat → F} {δ : ℝ}

/-- Exact sum of the scores of some nodes. -/
noncomputable def sumV (val : F → ℝ) (w : Nat → F) (k : List Nat) : ℝ := (k.map (fun i => val (w i))).sum

omit [ScoreOps F] in
theorem sumV_append (a b : List Nat) : sumV val w (a ++ b) = sumV val w a + sumV val w b := by simp [sumV]

omit [ScoreOps F] in
theorem sumV_cons (a : Nat) (b : List Nat) : sumV val w (a :: b) = val (w a) + sumV val w b := by simp [sumV]

/-- What a hypothesis promises, added up exactly. -/
noncomputable def promise (val : F → ℝ) (w bt : Nat → F) (h : Hypo F) : ℝ := val (bt h.node) + sumV val w h.next

/-- Every addition is exact up to `δ`. -/
structure Near (val : F → ℝ) (fin : F → Prop) (w bt : Nat → F) (δ : ℝ) (len : Nat) (begins ends : Nat → List Nat) : Prop where
  le : ∀ {x y}, fin x → fin y → lt x y = false → val y ≤ val x
  nonneg : 0 ≤ δ
  bos : val (bt 0) = 0
  bosW : val (w 0) = 0
  upper : ∀ {p r l}, r ∈ begins p → l ∈ ends p → val (bt l) + val (w r) ≤ val (bt r) + δ
  step : ∀ {c k gx}, VKey begins ends (c :: k) → VKey begins ends k → fin gx → |val gx - sumV val w k| ≤ k.length * δ →
    (fin (add (w c) gx) ∧ |val (add (w c) gx) - (val (w c) + val gx)| ≤ δ) ∧
    fin (add (bt c) gx) ∧ |val (add (bt c) gx) - (val (bt c) + val gx)| ≤ δ
  len_le : ∀ {s}, VKey begins ends s → s.length ≤ len + 2

theorem Near.prefix_le (E : Near val fin w bt δ len begins ends) : ∀ (pre : List Nat) (r : Nat),
    (pre ++ [r]).IsChain (Link begins ends) → (pre ++ [r]).head? = some 0 →
    sumV val w (pre ++ [r]) ≤ val (bt r) + pre.length * δ := by
  intro pre
  induction pre using List.reverseRecOn with
  | nil =>
    intro r _ h
    simp only [List.nil_append, List.head?_cons, Option.some.injEq] at h
    subst h
    simp [sumV, E.bos, E.bosW]
  | append_singleton pre l ih =>
    intro r hc hh
    have h1 : (pre ++ [l]).IsChain (Link begins ends) := (List.isChain_append.1 hc).1
    have h2 : (pre ++ [l]).head? = some 0 := by
      cases pre <;> simpa using hh
    have h3 := ih l h1 h2
    obtain ⟨p, h4, h5⟩ : Link begins ends l r := (List.isChain_append.1 hc).2.2 l (by simp) r (by simp)
    have := E.upper h5 h4
    rw [sumV_append, sumV_cons, List.length_append, List.length_singleton, Nat.cast_add, Nat.cast_one]
    simp only [sumV, List.map_nil, List.sum_nil] at *
    linarith

/-- A hypothesis promises nearly the score of every segmentation that ends with its nodes. -/
theorem Near.complete_le (E : Near val fin w bt δ len begins ends) {s : List Nat} (hs : VKey begins ends s)
    (h0 : s.head? = some 0) {h : Hypo F} (hk : key h <:+ s) :
    sumV val w s + h.next.length * δ ≤ promise val w bt h + (len + 1) * δ := by
  obtain ⟨pre, rfl⟩ := hk
  have hlen := E.len_le hs
  have e : pre ++ key h = (pre ++ [h.node]) ++ h.next := by simp [key]
  rw [e] at hs h0 ⊢
  rw [sumV_append]
  have h1 := E.prefix_le pre h.node (List.isChain_append.1 hs.1).1 (by
    cases pre <;> simpa using h0)
  have h2 : ((pre.length : ℝ) + h.next.length) * δ ≤ (len + 1) * δ := by
    refine mul_le_mul_of_nonneg_right ?_ E.nonneg
    have : pre.length + h.next.length ≤ len + 1 := by simp [key] at hlen; omega
    exact_mod_cast this
  unfold promise
  linarith

/-- What the loop keeps up. -/
structure InvN (val : F → ℝ) (fin : F → Prop) (w bt : Nat → F) (δ σ : ℝ) (begins ends : Nat → List Nat) (a : List (Hypo F))
    (found : List (List Nat)) : Prop where
  gx : ∀ h ∈ a, fin h.gx ∧ |val h.gx - sumV val w (key h)| ≤ h.next.length * δ
  fx : (∀ h ∈ a, fin h.fx ∧ |val h.fx - promise val w bt h| ≤ h.next.length * δ) ∨ a.length = 1
  ord : found.Pairwise (fun x y => sumV val w (fkey y) ≤ sumV val w (fkey x) + σ)
  cov : ∀ s, VKey begins ends s → s.head? = some 0 → (∃ f ∈ found, fkey f = s) ∨
    ((∃ h ∈ a, key h <:+ s) ∧ ∀ f ∈ found, sumV val w s ≤ sumV val w (fkey f) + σ)

theorem loop_near (hl : HeapLawsOn heap ok (fun x => fin x.fx))
    (hmax : HeapMax heap ok)
    (g : NGraph l len size begins ends node) {n : Nat} (hn : 0 < n)
    (E : Near val fin w bt δ len begins ends) (hbt : ∀ i, i < size → (node i).backtrack = bt i)
    (hw : ∀ i, i < size → (node i).score = w i)
    (hcap : ∀ ks : List (List Nat), (∀ k ∈ ks, VKey begins ends k) → ks.Pairwise Incomp → ks.length ≤ maxAgenda)
    {a : List (Hypo F)} (ha : ok a) {h : Hypo F} (hperm : a.Perm [h]) (hh : h.node = 1) (hnext : h.next = [])
    (hgx : fin h.gx ∧ val h.gx = val (w 1)) :
    ∃ res m, Post1 begins ends n res ∧
      res.Pairwise (fun x y => sumV val w (fkey y) ≤ sumV val w (fkey x) + 2 * ((len + 1) * δ)) ∧
      (∀ s, VKey begins ends s → s.head? = some 0 → (∃ f ∈ res, fkey f = s) ∨
        (res.length = n ∧ ∀ f ∈ res, sumV val w s ≤ sumV val w (fkey f) + 2 * ((len + 1) * δ))) ∧
      ∀ fuel, m < fuel → nbestLoop heap l n fuel a [] = .ok res := by
  have := nbestLoop_rule_on hl g n
    (fun a found => Inv1 begins ends n a found ∧ InvN val fin w bt δ (2 * ((len + 1) * δ)) begins ends a found)
    (fun found => Post1 begins ends n found ∧
      found.Pairwise (fun x y => sumV val w (fkey y) ≤ sumV val w (fkey x) + 2 * ((len + 1) * δ)) ∧
      ∀ s, VKey begins ends s → s.head? = some 0 → (∃ f ∈ found, fkey f = s) ∨
        (found.length = n ∧ ∀ f ∈ found, sumV val w s ≤ sumV val w (fkey f) + 2 * ((len + 1) * δ)))
    (by
      rintro found ⟨hi, hj⟩
      refine ⟨⟨hi.fvalid, nodup_of_anti hi.anti, by have := hi.lt; omega⟩, hj.ord, ?_⟩
      intro s hs h0
      rcases hj.cov s hs h0 with h | ⟨⟨x, hx, _⟩, _⟩
      · exact .inl h
      · simp at hx)
    (by
      rintro a top rest found ha ⟨hi, hj⟩ hp hperm
      have htop : top ∈ a := hperm.symm.subset (by simp)
      have hrest : ∀ x ∈ rest, x ∈ a := fun x hx => hperm.symm.subset (by simp [hx])
      have hlt := (VKey.lt g.graph g.size_pos (hi.valid top htop)).1
      refine ⟨hlt, ?_, ?_⟩
      · intro h0
        obtain ⟨h1, h2, h3, h4⟩ := inv1_found hi hperm h0
        have hF : promise val w bt top = sumV val w (fkey top.next.dropLast) := by
          rw [h2]; unfold promise key; rw [h0, sumV_cons, E.bos, E.bosW]
        have htlen : (top.next.length : ℝ) * δ ≤ (len + 1) * δ := by
          refine mul_le_mul_of_nonneg_right ?_ E.nonneg
          have := E.len_le (hi.valid top htop)
          have : top.next.length ≤ len + 1 := by simp [key] at this; omega
          exact_mod_cast this
        have htopmax : ∀ x ∈ rest, ∀ s, VKey begins ends s → s.head? = some 0 → key x <:+ s →
            sumV val w s ≤ sumV val w (fkey top.next.dropLast) + 2 * ((len + 1) * δ) := by
          intro x hx s hs hs0 hxs
          rcases hj.fx with hf | hf
          · have e1 := abs_le.1 (hf x (hrest x hx)).2
            have e2 := abs_le.1 (hf top htop).2
            have e3 := E.le (hf top htop).1 (hf x (hrest x hx)).1
              (hmax ha hp x (hrest x hx))
            have e4 := E.complete_le hs hs0 hxs
            rw [hF] at e2
            linarith
          · have := hperm.length_eq
            rw [hf] at this
            simp only [List.length_cons] at this
            have : rest = [] := List.length_eq_zero_iff.1 (by omega)
            subst this
            simp at hx
        have hfull : VKey begins ends (fkey top.next.dropLast) := by rw [h2]; exact hi.valid top htop
        have hord : (found ++ [top.next.dropLast]).Pairwise
            (fun x y => sumV val w (fkey y) ≤ sumV val w (fkey x) + 2 * ((len + 1) * δ)) := by
          rw [List.pairwise_append]
          refine ⟨hj.ord, List.pairwise_singleton _ _, ?_⟩
          intro x hx y hy
          simp only [List.mem_singleton] at hy
          subst hy
          rcases hj.cov _ hfull rfl with ⟨f, hf, e⟩ | ⟨_, h5⟩
          · exfalso
            rw [List.pairwise_append] at h4
            have h6 := h4.2.1
            rw [List.map_append, List.pairwise_append] at h6
            have := h6.2.2 (fkey f) (List.mem_map_of_mem hf) (fkey top.next.dropLast) (by simp)
            rw [e] at this
            exact this.1 (List.suffix_refl _)
          · exact h5 x hx
        have hcov : ∀ s, VKey begins ends s → s.head? = some 0 →
            (∃ f ∈ found ++ [top.next.dropLast], fkey f = s) ∨
            ((∃ h ∈ rest, key h <:+ s) ∧ ∀ f ∈ found ++ [top.next.dropLast],
              sumV val w s ≤ sumV val w (fkey f) + 2 * ((len + 1) * δ)) := by
          intro s hs hs0
          rcases hj.cov s hs hs0 with ⟨f, hf, e⟩ | ⟨⟨x, hx, hxs⟩, h5⟩
          · exact .inl ⟨f, by simp [hf], e⟩
          · rcases List.mem_cons.1 (hperm.subset hx) with rfl | hx'
            · refine .inl ⟨x.next.dropLast, by simp, ?_⟩
              rw [h2]
              unfold key at hxs ⊢
              rw [h0] at hxs ⊢
              exact key_zero g.graph hs hxs
            · refine .inr ⟨⟨x, hx', hxs⟩, ?_⟩
              intro f hf
              rcases List.mem_append.1 hf with hf | hf
              · exact h5 f hf
              · simp only [List.mem_singleton] at hf
                subst hf
                exact htopmax x hx' s hs hs0 hxs
        refine ⟨h1, fun e => ⟨⟨h3, nodup_of_anti h4, by simp [e]⟩, hord, ?_⟩,
          fun e => ⟨⟨fun x hx => hi.valid x (hrest x hx), h3, h4, ?_⟩, fun x hx => hj.gx x (hrest x hx), ?_, hord, hcov⟩⟩
        · intro s hs hs0
          rcases hcov s hs hs0 with h5 | ⟨_, h5⟩
          · exact .inl h5
          · exact .inr ⟨by simp [e], h5⟩
        · have := hi.lt; simp; omega
        · rcases hj.fx with hf | hf
          · exact .inl (fun x hx => hf x (hrest x hx))
          · have := hperm.length_eq
            rw [hf] at this
            simp only [List.length_cons] at this
            have : rest = [] := List.length_eq_zero_iff.1 (by omega)
            subst this
            exact .inl (by simp)
      · intro h0
        obtain ⟨hM, _⟩ := inv1_expand g hi hperm h0 (a' := _) (dropped := []) (by rw [List.append_nil])
        have hchild : ∀ k ∈ ends (node top.node).pos,
            (fin (child node top k).gx ∧
              |val (child node top k).gx - sumV val w (key (child node top k))| ≤ (child node top k).next.length * δ) ∧
            fin (child node top k).fx ∧
              |val (child node top k).fx - promise val w bt (child node top k)| ≤ (child node top k).next.length * δ := by
          intro k hk
          have hks := g.graph.end_lt hk
          obtain ⟨hg1, hg2⟩ := hj.gx top htop
          have hv : VKey begins ends (k :: key top) :=
            hM.valid (child node top k) (List.mem_append_left _ (List.mem_map_of_mem hk))
          have hnl : (((key top).length : Nat) : ℝ) = top.next.length + 1 := by simp [key]
          obtain ⟨⟨s1, s2⟩, s3, s4⟩ := E.step hv (hi.valid top htop) hg1 (by
            rw [hnl]
            have := E.nonneg
            linarith)
          have e0 := abs_le.1 hg2
          have e1 := abs_le.1 s2
          have e2 := abs_le.1 s4
          simp only [child]
          rw [hbt k hks, hw k hks]
          refine ⟨⟨s1, ?_⟩, s3, ?_⟩
          · simp only [key, List.length_cons, Nat.cast_add, Nat.cast_one] at *
            rw [sumV_cons]
            rw [abs_le]
            constructor <;> linarith
          · simp only [key, promise, List.length_cons, Nat.cast_add, Nat.cast_one] at *
            rw [abs_le]
            constructor <;> linarith
        refine ⟨fun k hk => (hchild k hk).2.1, ?_⟩
        intro a' dropped hp' _ hsize
        obtain ⟨_, hI'⟩ := inv1_expand g hi hperm h0 hp'
        refine ⟨hI', ?_⟩
        have hbeg := g.pos _ hlt h0
        have hd : dropped = [] := by
          rcases hsize with h | ⟨hk, hbig⟩
          · exact h
          · exfalso
            have h5 := hM.anti
            rw [List.pairwise_append] at h5
            have := hcap _ (by
              intro k hk
              obtain ⟨x, hx, rfl⟩ := List.mem_map.1 hk
              exact hM.valid x hx) h5.1
            rw [List.length_map] at this
            omega
        subst hd
        rw [List.append_nil] at hp'
        refine ⟨?_, .inl ?_, hj.ord, ?_⟩
        · intro x hx
          rcases List.mem_append.1 (hp'.symm.subset hx) with hx | hx
          · obtain ⟨k, hk, rfl⟩ := List.mem_map.1 hx
            exact (hchild k hk).1
          · exact hj.gx x (hrest x hx)
        · intro x hx
          rcases List.mem_append.1 (hp'.symm.subset hx) with hx | hx
          · obtain ⟨k, hk, rfl⟩ := List.mem_map.1 hx
            exact (hchild k hk).2
          · rcases hj.fx with hf | hf
            · exact hf x (hrest x hx)
            · have := hperm.length_eq
              rw [hf] at this
              simp only [List.length_cons] at this
              have : rest = [] := List.length_eq_zero_iff.1 (by omega)
              subst this
              simp at hx
        · intro s hs hs0
          rcases hj.cov s hs hs0 with h5 | ⟨⟨x, hx, hxs⟩, h5⟩
          · exact .inl h5
          · rcases List.mem_cons.1 (hperm.subset hx) with rfl | hx'
            · obtain ⟨k, hk, hks⟩ := key_extend g.graph hs hs0 h0 hbeg hxs
              exact .inr ⟨⟨child node x k, hp'.subset (List.mem_append_left _ (List.mem_map_of_mem hk)), hks⟩, h5⟩
            · exact .inr ⟨⟨x, hp'.subset (List.mem_append_right _ hx'), hxs⟩, h5⟩)
    (potential size node a) a [] (Nat.le_refl _) ha
    (by
      have hall : ∀ x ∈ a, x = h := fun x hx => by simpa using hperm.subset hx
      have hlen := hperm.length_eq
      refine ⟨⟨?_, by simp, ?_, by simpa using hn⟩, ?_, .inr (by simpa using hlen), by simp, ?_⟩
      · intro x hx
        rw [hall x hx]
        unfold key
        rw [hh, hnext]
        exact ⟨List.isChain_singleton _, rfl⟩
      · cases a with
        | nil => simp
        | cons x a => cases a with
          | nil => simp
          | cons y a => simp at hlen
      · intro x hx
        rw [hall x hx]
        refine ⟨hgx.1, ?_⟩
        rw [hgx.2]
        unfold key
        rw [hh, hnext]
        simp [sumV]
      · intro s hs _
        refine .inr ⟨⟨h, hperm.symm.subset (by simp), ?_⟩, by simp⟩
        unfold key
        rw [hh, hnext]
        exact ⟨s.dropLast, List.dropLast_append_getLast? 1 hs.2⟩)
  obtain ⟨res, h1, h2⟩ := this
  exact ⟨res, _, h1.1, h1.2.1, h1.2.2, h2⟩

end Lattice
end Tokengeex

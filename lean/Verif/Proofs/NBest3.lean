import Verif.Proofs.NBest2
/-
`Lattice::nbest` misses no segmentation before it has `n`, whatever the numbers.
-/
namespace Tokengeex
open Spec ScoreOps

variable {F : Type} [ScoreOps F]

namespace Lattice
variable {heap : Heap F} {ok : List (Hypo F) → Prop}
variable {l : Lattice F} {len size : Nat} {begins ends : Nat → List Nat} {node : Nat → LNode F}

/-- Every segmentation is found, or can still be found, or enough others can. -/
def Cover (begins ends : Nat → List Nat) (n : Nat) (a : List (Hypo F)) (found : List (List Nat)) : Prop :=
  ∀ s, VKey begins ends s → s.head? = some 0 → (∃ f ∈ found, fkey f = s) ∨ (∃ h ∈ a, key h <:+ s) ∨
    ((∀ p r, r ∈ begins p → ends p ≠ []) ∧ n ≤ found.length + a.length)

theorem loop_complete (hl : HeapLaws heap ok) (g : NGraph l len size begins ends node) {n : Nat} (hn : 0 < n)
    (hcap : (n ≤ minAgenda ∧ ∀ p r, r ∈ begins p → ends p ≠ []) ∨
      ∀ ks : List (List Nat), (∀ k ∈ ks, VKey begins ends k) → ks.Pairwise Incomp → ks.length ≤ maxAgenda)
    {a : List (Hypo F)} (ha : ok a) {h : Hypo F} (hperm : a.Perm [h]) (hh : h.node = 1) (hnext : h.next = []) :
    ∃ res m, Post1 begins ends n res ∧
      (∀ s, VKey begins ends s → s.head? = some 0 → (∃ f ∈ res, fkey f = s) ∨ res.length = n) ∧
      ∀ fuel, m < fuel → nbestLoop heap l n fuel a [] = .ok res := by
  have := nbestLoop_rule hl g n (fun a found => Inv1 begins ends n a found ∧ Cover begins ends n a found)
    (fun found => Post1 begins ends n found ∧
      ∀ s, VKey begins ends s → s.head? = some 0 → (∃ f ∈ found, fkey f = s) ∨ found.length = n)
    (by
      rintro found ⟨hi, hj⟩
      refine ⟨⟨hi.fvalid, nodup_of_anti hi.anti, by have := hi.lt; omega⟩, ?_⟩
      intro s hs h0
      rcases hj s hs h0 with h | ⟨x, hx, _⟩ | ⟨_, h⟩
      · exact .inl h
      · simp at hx
      · have := hi.lt; simp at h; omega)
    (by
      rintro a top rest found ha ⟨hi, hj⟩ hp hperm
      have htop : top ∈ a := hperm.symm.subset (by simp)
      have hrest : ∀ x ∈ rest, x ∈ a := fun x hx => hperm.symm.subset (by simp [hx])
      have hlt := (VKey.lt g.graph g.size_pos (hi.valid top htop)).1
      have hlen := hperm.length_eq
      simp only [List.length_cons] at hlen
      refine ⟨hlt, ?_, ?_⟩
      · intro h0
        obtain ⟨h1, h2, h3, h4⟩ := inv1_found hi hperm h0
        refine ⟨h1, fun e => ⟨⟨h3, nodup_of_anti h4, by simp [e]⟩, fun _ _ _ => .inr (by simp [e])⟩,
          fun e => ⟨⟨fun x hx => hi.valid x (hrest x hx), h3, h4, ?_⟩, ?_⟩⟩
        · have := hi.lt; simp; omega
        · intro s hs hs0
          rcases hj s hs hs0 with ⟨f, hf, e⟩ | ⟨x, hx, hxs⟩ | ⟨h5, h6⟩
          · exact .inl ⟨f, by simp [hf], e⟩
          · rcases List.mem_cons.1 (hperm.subset hx) with rfl | hx'
            · refine .inl ⟨x.next.dropLast, by simp, ?_⟩
              rw [h2]
              unfold key at hxs ⊢
              rw [h0] at hxs ⊢
              exact key_zero g.graph hs hxs
            · exact .inr (.inl ⟨x, hx', hxs⟩)
          · refine .inr (.inr ⟨h5, ?_⟩)
            simp only [List.length_append, List.length_singleton]
            omega
      · intro h0 a' dropped hp' _ hsize
        obtain ⟨hM, hI'⟩ := inv1_expand g hi hperm h0 hp'
        refine ⟨hI', ?_⟩
        have hbeg := g.pos _ hlt h0
        have hlen' := hp'.length_eq
        simp only [List.length_append, List.length_map] at hlen'
        intro s hs hs0
        by_cases hd : dropped = []
        · subst hd
          rw [List.append_nil] at hp'
          rcases hj s hs hs0 with h5 | ⟨x, hx, hxs⟩ | ⟨h5, h6⟩
          · exact .inl h5
          · rcases List.mem_cons.1 (hperm.subset hx) with rfl | hx'
            · obtain ⟨k, hk, hks⟩ := key_extend g.graph hs hs0 h0 hbeg hxs
              exact .inr (.inl ⟨child node x k, hp'.subset (List.mem_append_left _ (List.mem_map_of_mem hk)), hks⟩)
            · exact .inr (.inl ⟨x, hp'.subset (List.mem_append_right _ hx'), hxs⟩)
          · refine .inr (.inr ⟨h5, ?_⟩)
            have := List.length_pos_iff.2 (h5 _ _ hbeg)
            simp only [List.length_nil] at hlen'
            omega
        · rcases hsize with h | ⟨hk, hbig⟩
          · exact absurd h hd
          rcases hcap with ⟨hcap, hcon⟩ | hcap
          · refine .inr (.inr ⟨hcon, ?_⟩)
            rw [hk]; unfold minAgenda at *; omega
          · exfalso
            have h5 := hM.anti
            rw [List.pairwise_append] at h5
            have := hcap _ (by
              intro k hk
              obtain ⟨x, hx, rfl⟩ := List.mem_map.1 hk
              exact hM.valid x hx) h5.1
            rw [List.length_map] at this
            omega)
    (potential size node a) a [] (Nat.le_refl _) ha
    (by
      have hall : ∀ x ∈ a, x = h := fun x hx => by simpa using hperm.subset hx
      have hlen := hperm.length_eq
      refine ⟨⟨?_, by simp, ?_, by simpa using hn⟩, ?_⟩
      · intro x hx
        rw [hall x hx]
        unfold key
        rw [hh, hnext]
        exact ⟨List.isChain_singleton _, rfl⟩
      · cases a with
        | nil => simp
        | cons x a => cases a with
          | nil => simp
          | cons y a => simp at hlen
      · intro s hs _
        refine .inr (.inl ⟨h, hperm.symm.subset (by simp), ?_⟩)
        unfold key
        rw [hh, hnext]
        exact ⟨s.dropLast, List.dropLast_append_getLast? 1 hs.2⟩)
  obtain ⟨res, h1, h2⟩ := this
  exact ⟨res, _, h1.1, h1.2, h2⟩

end Lattice
end Tokengeex

import Verif.Model.Prune
import Verif.Proofs.NBest2
/-
More fuel does not change what pruning returns.
-/
namespace Tokengeex
variable {F : Type}

theorem bind_eq_of_ok {α β : Type} {x : Res α} {a : α} {f : α → Res β} (h : x = .ok a) : (x >>= f) = f a := by
  rw [h]; rfl

namespace Lattice
variable [ScoreOps F]

theorem nbestLoop_more (heap : Heap F) (l : Lattice F) (n : Nat) : ∀ (fuel : Nat) (agenda : List (Hypo F))
    (found r : List (List Nat)), nbestLoop heap l n fuel agenda found = .ok r →
    ∀ k, nbestLoop heap l n (fuel + k) agenda found = .ok r := by
  intro fuel
  induction fuel with
  | zero => intro agenda found r h; simp [nbestLoop] at h
  | succ fuel ih =>
    intro agenda found r h k
    rw [Nat.add_right_comm]
    rw [nbestLoop.eq_def] at h ⊢
    dsimp only at h ⊢
    cases hp : heap.pop agenda with
    | none => rw [hp] at h; exact h
    | some p =>
      obtain ⟨top, agenda'⟩ := p
      rw [hp] at h
      dsimp only at h ⊢
      obtain ⟨x, hx, h⟩ := bind_ok h
      obtain ⟨bos, hb, h⟩ := bind_ok h
      rw [bind_eq_of_ok hx, bind_eq_of_ok hb]
      by_cases he : x.tokenId = bos.tokenId
      · rw [if_pos he] at h ⊢
        cases hn : top.next with
        | nil => rw [hn] at h; exact h
        | cons a as =>
          rw [hn] at h
          dsimp only at h ⊢
          by_cases hl : (found ++ [(a :: as).dropLast]).length = n
          · rw [if_pos hl] at h ⊢; exact h
          · rw [if_neg hl] at h ⊢; exact ih _ _ _ h k
      · rw [if_neg he] at h ⊢
        obtain ⟨ag, ha, h⟩ := bind_ok h
        rw [bind_eq_of_ok ha]
        exact ih _ _ _ h k

theorem nbest_more {heap : Heap F} {l : Lattice F} {n fuel : Nat} {r : Lattice F × List (List (LNode F))}
    (h : l.nbest heap n fuel = .ok r) (k : Nat) : l.nbest heap n (fuel + k) = .ok r := by
  match n with
  | 0 => exact h
  | 1 => exact h
  | n + 2 =>
    rw [nbest.eq_3 _ _ _ _ (by omega) (by omega)] at h ⊢
    obtain ⟨eos, he, h⟩ := bind_ok h
    dsimp only at h ⊢
    obtain ⟨v, hv, h⟩ := bind_ok h
    obtain ⟨found, hf, h⟩ := bind_ok h
    rw [bind_eq_of_ok he, bind_eq_of_ok hv, bind_eq_of_ok (nbestLoop_more _ _ _ _ _ _ _ hf k)]
    exact h

end Lattice

namespace Pruner
variable [TrainOps F]

theorem segmentTokens_more {heap : Heap F} {m : Model F} {rnd : Nat → F} {fuel : Nat} (k : Nat) :
    ∀ (l : List (ScoredToken F)) (st : Lattice F × VecPool) (r : List (Bool × List TokenID)),
    segmentTokens heap m rnd fuel l st = .ok r → segmentTokens heap m rnd (fuel + k) l st = .ok r := by
  intro l
  induction l with
  | nil => intro st r h; exact h
  | cons token rest ih =>
    intro st r h
    rw [segmentTokens] at h ⊢
    obtain ⟨x, hx, h⟩ := bind_ok h
    obtain ⟨q, hq, h⟩ := bind_ok h
    obtain ⟨nb, hn, h⟩ := bind_ok h
    obtain ⟨a, ha, h⟩ := bind_ok h
    obtain ⟨as, has, h⟩ := bind_ok h
    rw [bind_eq_of_ok hx, bind_eq_of_ok hq, bind_eq_of_ok (Lattice.nbest_more hn k), bind_eq_of_ok ha, bind_eq_of_ok (ih _ _ has)]
    exact h

theorem pruneVocab_more {c : Pruner F} {std : Std F} {m : Model F} {rnd : Nat → F} {numSamples : Nat} {freqs : List Nat}
    {fuel : Nat} {w : List (ScoredToken F)} (h : pruneVocab c std m rnd numSamples freqs fuel = .ok w) :
    ∀ fuel' ≥ fuel, pruneVocab c std m rnd numSamples freqs fuel' = .ok w := by
  intro fuel' hf
  obtain ⟨k, rfl⟩ := Nat.exists_eq_add_of_le hf
  unfold pruneVocab at h ⊢
  obtain ⟨alts, ha, h⟩ := bind_ok h
  rw [bind_eq_of_ok (segmentTokens_more k _ _ _ ha)]
  exact h

end Pruner
end Tokengeex

import Verif.Model.Trie
/-
The trie is a finite map, and prefix search looks up every non-empty prefix in order of length.
-/
namespace Tokengeex

namespace TNode
variable {D : Type}

/-- The value stored under a key. -/
def find : TNode D → List UInt8 → Option D
  | t, [] => t.data
  | t, b :: bs => match t.children b with
    | some c => c.find bs
    | none => none

@[simp] theorem find_empty (k : List UInt8) : (empty : TNode D).find k = none := by
  cases k <;> simp [find, empty, data, children]

theorem find_getD_empty (o : Option (TNode D)) (k : List UInt8) :
    (o.getD empty).find k = match o with | some c => c.find k | none => none := by
  cases o <;> simp

theorem find_push (t : TNode D) (k : List UInt8) (d : D) (k' : List UInt8) :
    (t.push k d).find k' = if k' = k then some d else t.find k' := by
  induction k generalizing t k' with
  | nil =>
    cases t with
    | mk dt ch =>
      cases k' with
      | nil => simp [push, find, data]
      | cons b bs => simp [push, find, children]
  | cons b bs ih =>
    cases t with
    | mk dt ch =>
      cases k' with
      | nil => simp [push, find, data]
      | cons c cs =>
        by_cases hc : c = b
        · subst hc
          simp only [push, find, children, if_true, ih, find_getD_empty]
          by_cases h : cs = bs
          · simp [h]
          · simp [h]
        · simp [push, find, children, hc]

end TNode

variable {D : Type}

/-- Structural version of the search. -/
def searchS (t : TNode D) : List UInt8 → List D
  | [] => []
  | b :: bs =>
    match t.children b with
    | none => []
    | some c =>
      match c.data with
      | some d => d :: searchS c bs
      | none => searchS c bs

theorem drain_eq_searchS (s : List UInt8) (t : TNode D) (pre : List UInt8) (fuel : Nat) (h : s.length ≤ fuel) :
    TrieIter.drain fuel ⟨t, pre, s⟩ = searchS t s := by
  induction s generalizing t pre fuel with
  | nil => cases fuel <;> simp [TrieIter.drain, TrieIter.next, TrieIter.nextAux, searchS]
  | cons b bs ih =>
    cases fuel with
    | zero => simp at h
    | succ fuel =>
      simp only [List.length_cons, Nat.add_le_add_iff_right] at h
      rw [TrieIter.drain]
      simp only [TrieIter.next, TrieIter.nextAux, searchS]
      cases hc : t.children b with
      | none => simp
      | some c =>
        simp only
        cases hd : c.data with
        | some d => simp [ih c _ fuel h]
        | none =>
          have := ih c (pre ++ [b]) (fuel + 1) (by omega)
          rw [TrieIter.drain] at this
          simpa [TrieIter.next] using this

theorem prefixSearch_eq_searchS (t : TNode D) (s : List UInt8) : prefixSearch t s = searchS t s :=
  drain_eq_searchS s t [] s.length (Nat.le_refl _)

/-- Prefix search looks up the prefixes of length 1, 2, …, in that order. -/
theorem searchS_eq (t : TNode D) (s : List UInt8) :
    searchS t s = (List.range s.length).filterMap (fun i => t.find (s.take (i + 1))) := by
  induction s generalizing t with
  | nil => simp [searchS]
  | cons b bs ih =>
    rw [List.length_cons, List.range_succ_eq_map, List.filterMap_cons, List.filterMap_map]
    simp only [searchS, List.take_succ_cons, List.take_zero]
    cases hc : t.children b with
    | none => simp [TNode.find, hc, Function.comp_def]
    | some c =>
      simp only [TNode.find, hc, ih c, Function.comp_def, Nat.succ_eq_add_one]
      cases c.data <;> rfl

theorem prefixSearch_eq (t : TNode D) (s : List UInt8) :
    prefixSearch t s = (List.range s.length).filterMap (fun i => t.find (s.take (i + 1))) := by
  rw [prefixSearch_eq_searchS, searchS_eq]

end Tokengeex

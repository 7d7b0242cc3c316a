import Verif.Proofs.BinaryHeap
/-
`BinaryHeap` only compares elements it holds: an order of these is enough.
-/
namespace Tokengeex
namespace BinaryHeap
variable {α : Type} {le le' : α → α → Bool} {S : α → Prop}

theorem swap_all {data : List α} (h : ∀ x ∈ data, S x) (i j : Nat) : ∀ x ∈ swap data i j, S x :=
  fun x hx => h x ((swap_perm data i j).subset hx)

theorem siftUp_congr (hle : ∀ x y, S x → S y → le x y = le' x y) : ∀ (fuel : Nat) (data : List α) (pos : Nat),
    (∀ x ∈ data, S x) → siftUp le fuel data pos = siftUp le' fuel data pos := by
  intro fuel
  induction fuel with
  | zero => intro data pos _; rfl
  | succ fuel ih =>
    intro data pos h
    unfold siftUp
    by_cases hp : pos > 0
    · rw [if_pos hp, if_pos hp]
      dsimp only
      cases hx : data[pos]? with
      | none => rfl
      | some x =>
        cases hy : data[(pos - 1) / 2]? with
        | none => rfl
        | some y =>
          dsimp only
          rw [hle x y (h x (List.mem_of_getElem? hx)) (h y (List.mem_of_getElem? hy)), ih _ _ (swap_all h _ _)]
    · rw [if_neg hp, if_neg hp]

theorem siftDown_congr (hle : ∀ x y, S x → S y → le x y = le' x y) : ∀ (fuel : Nat) (data : List α) (pos : Nat),
    (∀ x ∈ data, S x) → siftDown le fuel data pos = siftDown le' fuel data pos ∧
      ∀ x ∈ (siftDown le fuel data pos).1, S x := by
  intro fuel
  induction fuel with
  | zero => intro data pos h; exact ⟨rfl, h⟩
  | succ fuel ih =>
    intro data pos h
    unfold siftDown
    dsimp only
    by_cases hp : 2 * pos + 1 ≤ data.length - 2
    · rw [if_pos hp, if_pos hp]
      cases hx : data[2 * pos + 1]? with
      | none => exact ⟨rfl, h⟩
      | some x =>
        cases hy : data[2 * pos + 1 + 1]? with
        | none => exact ⟨rfl, h⟩
        | some y =>
          dsimp only
          rw [hle x y (h x (List.mem_of_getElem? hx)) (h y (List.mem_of_getElem? hy))]
          exact ih _ _ (swap_all h _ _)
    · rw [if_neg hp, if_neg hp]
      by_cases hq : 2 * pos + 1 = data.length - 1
      · rw [if_pos hq]; exact ⟨rfl, swap_all h _ _⟩
      · rw [if_neg hq]; exact ⟨rfl, h⟩

theorem push_congr (hle : ∀ x y, S x → S y → le x y = le' x y) {data : List α} {item : α} (h : ∀ x ∈ data, S x)
    (hi : S item) : push le data item = push le' data item := by
  refine siftUp_congr hle _ _ _ ?_
  intro x hx
  rcases List.mem_append.1 hx with hx | hx
  · exact h x hx
  · rw [List.mem_singleton] at hx; subst hx; exact hi

theorem pop_congr (hle : ∀ x y, S x → S y → le x y = le' x y) {data : List α} (h : ∀ x ∈ data, S x) :
    pop le data = pop le' data := by
  unfold pop
  cases hl : data.getLast? with
  | none => rfl
  | some item =>
    dsimp only
    cases hd : data.dropLast with
    | nil => rfl
    | cons first rest =>
      dsimp only
      have hall : ∀ x ∈ item :: rest, S x := by
        intro x hx
        rcases List.mem_cons.1 hx with rfl | hx
        · exact h x (List.mem_of_getLast? hl)
        · exact h x (List.dropLast_subset data (by rw [hd]; simp [hx]))
      obtain ⟨h1, h2⟩ := siftDown_congr hle (rest.length + 1) (item :: rest) 0 hall
      rw [← h1]
      rw [siftUp_congr hle _ _ _ h2]

end BinaryHeap
end Tokengeex

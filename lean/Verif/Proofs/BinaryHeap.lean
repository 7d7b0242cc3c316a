import Verif.Model.BinaryHeap
import Mathlib.Data.List.Perm.Basic
/-
`BinaryHeap` loses nothing with any comparison, and returns a maximum if "not less" is transitive.
-/
namespace Tokengeex
namespace BinaryHeap
variable {α : Type}

theorem swap_perm (data : List α) (i j : Nat) : (swap data i j).Perm data := by
  unfold swap
  cases hi : data[i]? with
  | none => exact .refl _
  | some x =>
    cases hj : data[j]? with
    | none => exact .refl _
    | some y =>
      obtain ⟨h1, rfl⟩ := List.getElem?_eq_some_iff.1 hi
      obtain ⟨h2, rfl⟩ := List.getElem?_eq_some_iff.1 hj
      exact List.set_set_perm h1 h2

theorem swap_length (data : List α) (i j : Nat) : (swap data i j).length = data.length := (swap_perm data i j).length_eq

theorem swap_get (data : List α) {i j : Nat} (hi : i < data.length) (hj : j < data.length) (k : Nat) :
    (swap data i j)[k]? = data[if k = i then j else if k = j then i else k]? := by
  unfold swap
  rw [List.getElem?_eq_getElem hi, List.getElem?_eq_getElem hj]
  simp only
  rw [List.getElem?_set, List.getElem?_set]
  by_cases h1 : k = i
  · subst h1
    rw [show (if k = k then j else if k = j then k else k) = j from if_pos rfl, List.getElem?_eq_getElem hj]
    by_cases h2 : j = k
    · subst h2
      rw [if_pos rfl, if_pos (by simpa using hj)]
    · rw [if_neg h2, if_pos rfl, if_pos hi]
  · rw [if_neg h1]
    by_cases h2 : k = j
    · subst h2
      rw [if_pos rfl, if_pos rfl, if_pos (by simpa using hj), List.getElem?_eq_getElem hi]
    · rw [if_neg (fun e => h2 e.symm), if_neg (fun e => h1 e.symm), if_neg h2]

theorem siftUp_perm (le : α → α → Bool) : ∀ (fuel : Nat) (data : List α) (pos : Nat), (siftUp le fuel data pos).Perm data := by
  intro fuel
  induction fuel with
  | zero => intros; exact .refl _
  | succ fuel ih =>
    intro data pos
    rw [siftUp]
    by_cases h : pos > 0
    · rw [if_pos h]
      cases data[pos]? with
      | none => exact .refl _
      | some x =>
        cases hp : data[(pos - 1) / 2]? with
        | none => simp only [hp]; exact .refl _
        | some y =>
          simp only [hp]
          by_cases hl : le x y
          · rw [if_pos hl]
          · rw [if_neg hl]
            exact (ih _ _).trans (swap_perm _ _ _)
    · rw [if_neg h]

theorem siftDown_perm (le : α → α → Bool) : ∀ (fuel : Nat) (data : List α) (pos : Nat),
    (siftDown le fuel data pos).1.Perm data := by
  intro fuel
  induction fuel with
  | zero => intros; exact .refl _
  | succ fuel ih =>
    intro data pos
    rw [siftDown]
    by_cases h : 2 * pos + 1 ≤ data.length - 2
    · simp only [h, if_true]
      cases data[2 * pos + 1]? with
      | none => exact .refl _
      | some x =>
        cases hp : data[2 * pos + 1 + 1]? with
        | none => simp only; exact .refl _
        | some y =>
          simp only
          exact (ih _ _).trans (swap_perm _ _ _)
    · simp only [h, if_false]
      by_cases h2 : 2 * pos + 1 = data.length - 1
      · rw [if_pos h2]
        exact swap_perm _ _ _
      · rw [if_neg h2]

theorem push_perm (le : α → α → Bool) (data : List α) (item : α) : (push le data item).Perm (item :: data) :=
  (siftUp_perm _ _ _ _).trans (List.perm_append_singleton _ _)

theorem pop_none (le : α → α → Bool) (data : List α) (h : pop le data = none) : data = [] := by
  unfold pop at h
  cases hl : data.getLast? with
  | none => exact List.getLast?_eq_none_iff.1 hl
  | some item =>
    rw [hl] at h
    simp only at h
    cases hd : data.dropLast with
    | nil => rw [hd] at h; simp at h
    | cons a l => rw [hd] at h; simp at h

theorem dropLast_getLast {data : List α} {item : α} (h : data.getLast? = some item) : data = data.dropLast ++ [item] := by
  obtain ⟨ys, rfl⟩ := List.getLast?_eq_some_iff.1 h
  simp

theorem pop_perm (le : α → α → Bool) (data : List α) {x : α} {data' : List α} (h : pop le data = some (x, data')) :
    data.Perm (x :: data') := by
  unfold pop at h
  cases hl : data.getLast? with
  | none => rw [hl] at h; simp at h
  | some item =>
    have hsplit := dropLast_getLast hl
    rw [hl] at h
    simp only at h
    cases hd : data.dropLast with
    | nil =>
      rw [hd] at h hsplit
      simp only [Option.some.injEq, Prod.mk.injEq] at h
      obtain ⟨rfl, rfl⟩ := h
      rw [hsplit]
      exact .refl _
    | cons a l =>
      rw [hd] at h hsplit
      simp only [Option.some.injEq, Prod.mk.injEq] at h
      obtain ⟨rfl, rfl⟩ := h
      rw [hsplit]
      refine (List.Perm.cons _ ?_)
      refine (List.perm_append_singleton _ _).trans ?_
      exact ((siftUp_perm _ _ _ _).trans (siftDown_perm _ _ _ _)).symm

/-! ### Order -/

/-- `r` relates the elements at `i` and `j`, if they exist. -/
def Pair (r : α → α → Prop) (data : List α) (i j : Nat) : Prop :=
  ∀ x y, data[i]? = some x → data[j]? = some y → r x y

/-- Every element is related to its children. -/
def Ordered (r : α → α → Prop) (data : List α) : Prop := ∀ j, 0 < j → Pair r data ((j - 1) / 2) j

theorem pair_swap {r : α → α → Prop} {data : List α} {a b i j : Nat} (ha : a < data.length) (hb : b < data.length) :
    Pair r (swap data a b) i j ↔
      Pair r data (if i = a then b else if i = b then a else i) (if j = a then b else if j = b then a else j) := by
  unfold Pair
  rw [swap_get data ha hb, swap_get data ha hb]

theorem Pair.trans {r : α → α → Prop} (htrans : ∀ a b c, r a b → r b c → r a c) {data : List α} {i j k : Nat}
    (hj : j < data.length) (h1 : Pair r data i j) (h2 : Pair r data j k) : Pair r data i k := by
  intro x y hx hy
  have hj' := List.getElem?_eq_getElem hj
  exact htrans _ _ _ (h1 _ _ hx hj') (h2 _ _ hj' hy)

variable {le : α → α → Bool} {r : α → α → Prop}

/-- Moving up repairs the order, if it was broken only between `pos` and its parent. -/
theorem siftUp_ordered (htrans : ∀ a b c, r a b → r b c → r a c) (h1 : ∀ a b, le a b = true → r b a)
    (h2 : ∀ a b, le a b = false → r a b) : ∀ (fuel : Nat) (data : List α) (pos : Nat), pos ≤ fuel → pos < data.length →
    (∀ j, 0 < j → j ≠ pos → Pair r data ((j - 1) / 2) j) →
    (∀ c, 0 < c → (c - 1) / 2 = pos → 0 < pos → Pair r data ((pos - 1) / 2) c) →
    Ordered r (siftUp le fuel data pos) := by
  intro fuel
  induction fuel with
  | zero =>
    intro data pos hf _ ho _ j hj
    exact ho j hj (by omega)
  | succ fuel ih =>
    intro data pos hf hlen ho hg
    rw [siftUp]
    by_cases h : pos > 0
    · rw [if_pos h]
      have hpl : (pos - 1) / 2 < data.length := by omega
      obtain ⟨x, hx⟩ : ∃ x, data[pos]? = some x := ⟨_, List.getElem?_eq_getElem hlen⟩
      obtain ⟨y, hy⟩ : ∃ y, data[(pos - 1) / 2]? = some y := ⟨_, List.getElem?_eq_getElem hpl⟩
      simp only [hx, hy]
      by_cases hl : le x y = true
      · rw [if_pos hl]
        intro j hj
        by_cases e : j = pos
        · subst e
          intro a b ha hb
          rw [hy] at ha
          rw [hx] at hb
          cases ha
          cases hb
          exact h1 _ _ hl
        · exact ho j hj e
      · rw [if_neg hl]
        have hxy : Pair r data pos ((pos - 1) / 2) := by
          intro a b ha hb
          rw [hx] at ha
          rw [hy] at hb
          cases ha
          cases hb
          exact h2 _ _ (by simpa using hl)
        refine ih _ _ (by omega) (by rw [swap_length]; omega) ?_ ?_
        · intro j hj hne
          rw [pair_swap hlen hpl]
          by_cases e1 : j = pos
          · subst e1
            rw [if_neg (by omega), if_pos rfl, if_pos rfl]
            exact hxy
          · rw [if_neg e1, if_neg hne]
            by_cases e2 : (j - 1) / 2 = pos
            · rw [if_pos e2]
              exact hg j hj e2 h
            · rw [if_neg e2]
              by_cases e3 : (j - 1) / 2 = (pos - 1) / 2
              · rw [if_pos e3]
                have := ho j hj e1
                rw [e3] at this
                exact hxy.trans htrans hpl this
              · rw [if_neg e3]
                exact ho j hj e1
        · intro c hc hcp hpos
          rw [pair_swap hlen hpl]
          rw [if_neg (by omega), if_neg (by omega)]
          have hgp := ho ((pos - 1) / 2) hpos (by omega)
          by_cases e1 : c = pos
          · rw [if_pos e1]
            exact hgp
          · rw [if_neg e1, if_neg (by omega)]
            have := ho c hc e1
            rw [hcp] at this
            exact hgp.trans htrans hpl this
    · rw [if_neg h]
      intro j hj
      exact ho j hj (by omega)

/-- Moving down keeps the order among the others, and ends at a position without children. -/
theorem siftDown_ordered (h1 : ∀ a b, le a b = true → r b a)
    (h2 : ∀ a b, le a b = false → r a b) : ∀ (fuel : Nat) (data : List α) (pos : Nat), data.length ≤ pos + fuel →
    pos < data.length →
    (∀ j, 0 < j → j ≠ pos → (j - 1) / 2 ≠ pos → Pair r data ((j - 1) / 2) j) →
    (∀ c, 0 < c → (c - 1) / 2 = pos → 0 < pos → Pair r data ((pos - 1) / 2) c) →
    ∀ data' pos', siftDown le fuel data pos = (data', pos') →
      pos' < data'.length ∧ data'.length ≤ 2 * pos' + 1 ∧
      ∀ j, 0 < j → j ≠ pos' → (j - 1) / 2 ≠ pos' → Pair r data' ((j - 1) / 2) j := by
  intro fuel
  induction fuel with
  | zero => intro data pos hf hlen; omega
  | succ fuel ih =>
    intro data pos hf hlen ho hg data' pos' he
    rw [siftDown] at he
    -- one step to the child `c`
    have step : ∀ c, 0 < c → (c - 1) / 2 = pos → c < data.length →
        (∀ j, 0 < j → (j - 1) / 2 = pos → j ≠ c → Pair r data c j) →
        (∀ j, 0 < j → j ≠ c → (j - 1) / 2 ≠ c → Pair r (swap data pos c) ((j - 1) / 2) j) ∧
        (∀ d, 0 < d → (d - 1) / 2 = c → 0 < c → Pair r (swap data pos c) ((c - 1) / 2) d) := by
      intro c hc hcp hcl hbest
      constructor
      · intro j hj hjc hjp
        rw [pair_swap hlen hcl]
        rw [if_neg hjc]
        by_cases e1 : j = pos
        · rw [if_pos e1, if_neg (by omega), if_neg hjp, e1]
          exact hg c hc hcp (by omega)
        · rw [if_neg e1]
          by_cases e2 : (j - 1) / 2 = pos
          · rw [if_pos e2]
            exact hbest j hj e2 hjc
          · rw [if_neg e2, if_neg hjp]
            exact ho j hj e1 e2
      · intro d hd hdc _
        rw [pair_swap hlen hcl, if_pos hcp, if_neg (by omega), if_neg (by omega)]
        have := ho d hd (by omega) (by omega)
        rw [hdc] at this
        exact this
    by_cases h : 2 * pos + 1 ≤ data.length - 2
    · simp only [h, if_true] at he
      obtain ⟨x, hx⟩ : ∃ x, data[2 * pos + 1]? = some x := ⟨_, List.getElem?_eq_getElem (by omega)⟩
      obtain ⟨y, hy⟩ : ∃ y, data[2 * pos + 1 + 1]? = some y := ⟨_, List.getElem?_eq_getElem (by omega)⟩
      simp only [hx, hy] at he
      by_cases hl : le x y = true
      · rw [if_pos hl] at he
        obtain ⟨s1, s2⟩ := step (2 * pos + 1 + 1) (by omega) (by omega) (by omega) (by
          intro j hj hjp hne
          have : j = 2 * pos + 1 := by omega
          subst this
          intro a b ha hb
          rw [hy] at ha
          rw [hx] at hb
          cases ha
          cases hb
          exact h1 _ _ hl)
        exact ih _ _ (by rw [swap_length]; omega) (by rw [swap_length]; omega) s1 s2 _ _ he
      · rw [if_neg hl] at he
        obtain ⟨s1, s2⟩ := step (2 * pos + 1) (by omega) (by omega) (by omega) (by
          intro j hj hjp hne
          have : j = 2 * pos + 1 + 1 := by omega
          subst this
          intro a b ha hb
          rw [hx] at ha
          rw [hy] at hb
          cases ha
          cases hb
          exact h2 _ _ (by simpa using hl))
        exact ih _ _ (by rw [swap_length]; omega) (by rw [swap_length]; omega) s1 s2 _ _ he
    · simp only [h, if_false] at he
      by_cases h2' : 2 * pos + 1 = data.length - 1
      · rw [if_pos h2'] at he
        simp only [Prod.mk.injEq] at he
        obtain ⟨rfl, rfl⟩ := he
        obtain ⟨s1, s2⟩ := step (2 * pos + 1) (by omega) (by omega) (by omega) (by
          intro j hj hjp hne a b ha hb
          have : j < data.length := (List.getElem?_eq_some_iff.1 hb).1
          omega)
        exact ⟨by rw [swap_length]; omega, by rw [swap_length]; omega, s1⟩
      · rw [if_neg h2'] at he
        simp only [Prod.mk.injEq] at he
        obtain ⟨rfl, rfl⟩ := he
        exact ⟨hlen, by omega, ho⟩

theorem push_ordered (htrans : ∀ a b c, r a b → r b c → r a c) (h1 : ∀ a b, le a b = true → r b a)
    (h2 : ∀ a b, le a b = false → r a b) {data : List α} (item : α) (ho : Ordered r data) :
    Ordered r (push le data item) := by
  refine siftUp_ordered htrans h1 h2 _ _ _ (Nat.le_refl _) (by simp) ?_ ?_
  · intro j hj hne a b ha hb
    have hjl : j < (data ++ [item]).length := (List.getElem?_eq_some_iff.1 hb).1
    rw [List.length_append, List.length_singleton] at hjl
    rw [List.getElem?_append_left (by omega)] at ha hb
    exact ho j hj _ _ ha hb
  · intro c hc hcp _ a b _ hb
    have hjl : c < (data ++ [item]).length := (List.getElem?_eq_some_iff.1 hb).1
    rw [List.length_append, List.length_singleton] at hjl
    omega

theorem pop_ordered (htrans : ∀ a b c, r a b → r b c → r a c) (h1 : ∀ a b, le a b = true → r b a)
    (h2 : ∀ a b, le a b = false → r a b) {data : List α} (ho : Ordered r data) {x : α} {data' : List α}
    (h : pop le data = some (x, data')) : Ordered r data' := by
  unfold pop at h
  cases hl : data.getLast? with
  | none => rw [hl] at h; simp at h
  | some item =>
    have hsplit := dropLast_getLast hl
    rw [hl] at h
    simp only at h
    cases hd : data.dropLast with
    | nil =>
      rw [hd] at h
      simp only [Option.some.injEq, Prod.mk.injEq] at h
      obtain ⟨rfl, rfl⟩ := h
      intro j _ a b ha
      simp at ha
    | cons a l =>
      rw [hd] at h hsplit
      simp only [Option.some.injEq, Prod.mk.injEq] at h
      obtain ⟨rfl, rfl⟩ := h
      obtain ⟨down, pos, hs⟩ : ∃ down pos, siftDown le (l.length + 1) (item :: l) 0 = (down, pos) := ⟨_, _, rfl⟩
      rw [hs]
      dsimp only
      obtain ⟨s1, s2, s3⟩ := siftDown_ordered h1 h2 (l.length + 1) (item :: l) 0 (by simp) (by simp) (by
        intro j hj _ hjp u v hu hv
        have hlv : j < (item :: l).length := (List.getElem?_eq_some_iff.1 hv).1
        rw [List.length_cons] at hlv
        have conv : ∀ k, 0 < k → k < l.length + 1 → (item :: l)[k]? = data[k]? := by
          intro k hk hk'
          rw [hsplit, List.getElem?_append_left (by simpa using hk')]
          obtain ⟨k, rfl⟩ : ∃ m, k = m + 1 := ⟨k - 1, by omega⟩
          rfl
        rw [conv _ (by omega) (by omega)] at hu
        rw [conv _ hj hlv] at hv
        exact ho j hj _ _ hu hv) (by intro c _ _ h0; omega) _ _ hs
      refine siftUp_ordered htrans h1 h2 _ _ _ (Nat.le_refl _) s1 ?_ ?_
      · intro j hj hne
        by_cases hjp : (j - 1) / 2 = pos
        · intro u v _ hv
          have := (List.getElem?_eq_some_iff.1 hv).1
          omega
        · exact s3 j hj hne hjp
      · intro c hc hcp _ u v _ hv
        have := (List.getElem?_eq_some_iff.1 hv).1
        omega

theorem ordered_root (htrans : ∀ a b c, r a b → r b c → r a c) (hrefl : ∀ a, r a a) {data : List α} (ho : Ordered r data) :
    ∀ j, Pair r data 0 j := by
  intro j
  induction j using Nat.strongRecOn with
  | _ j ih =>
    by_cases h : j = 0
    · subst h
      intro x y hx hy
      rw [hx] at hy
      cases hy
      exact hrefl _
    · intro x y hx hy
      have hjl := (List.getElem?_eq_some_iff.1 hy).1
      exact (ih ((j - 1) / 2) (by omega)).trans htrans (by omega) (ho j (by omega)) x y hx hy

theorem pop_first (le : α → α → Bool) {data : List α} {x : α} {data' : List α} (h : pop le data = some (x, data')) :
    data[0]? = some x := by
  unfold pop at h
  cases hl : data.getLast? with
  | none => rw [hl] at h; simp at h
  | some item =>
    have hsplit := dropLast_getLast hl
    rw [hl] at h
    simp only at h
    cases hd : data.dropLast with
    | nil =>
      rw [hd] at h hsplit
      simp only [Option.some.injEq, Prod.mk.injEq] at h
      obtain ⟨rfl, rfl⟩ := h
      rw [hsplit]
      rfl
    | cons a l =>
      rw [hd] at h hsplit
      simp only [Option.some.injEq, Prod.mk.injEq] at h
      obtain ⟨rfl, rfl⟩ := h
      rw [hsplit]
      rfl

end BinaryHeap
end Tokengeex

import Verif.Proofs.BinaryHeap
import Verif.Spec.BinaryHeap
import Verif.Props.NBest
/-
C82: the agenda of `nbest`, a `BinaryHeap` used with an inconsistent order.
-/
namespace Tokengeex
open Spec ScoreOps Tokengeex.Lattice

variable {F : Type} [ScoreOps F]

theorem Hypo.le_iff (a b : Hypo F) : Hypo.le a b = lt a.fx b.fx := by
  unfold Hypo.le Hypo.cmp
  cases lt a.fx b.fx <;> rfl

/-- With numbers of any kind, NaN included, the agenda neither loses nor invents hypotheses. -/
theorem agenda_laws : HeapLaws (agendaHeap F) (fun _ => True) :=
  ⟨trivial, fun _ => ⟨trivial, BinaryHeap.push_perm _ _ _⟩, fun _ h => BinaryHeap.pop_none _ _ h,
    fun _ h => ⟨trivial, BinaryHeap.pop_perm _ _ h⟩⟩

/-- The states of the agenda: no hypothesis is above one with a larger `fx`. -/
def AgendaOrdered (data : List (Hypo F)) : Prop := BinaryHeap.Ordered (fun a b : Hypo F => lt a.fx b.fx = false) data

theorem agenda_ordered_laws (hasymm : ∀ a b : F, lt a b = true → lt b a = false)
    (htrans : ∀ a b c : F, lt a b = false → lt b c = false → lt a c = false) :
    HeapLaws (agendaHeap F) AgendaOrdered ∧ HeapMax (agendaHeap F) AgendaOrdered := by
  have ht : ∀ a b c : Hypo F, lt a.fx b.fx = false → lt b.fx c.fx = false → lt a.fx c.fx = false :=
    fun a b c => htrans _ _ _
  have h1 : ∀ a b : Hypo F, Hypo.le a b = true → lt b.fx a.fx = false :=
    fun a b h => hasymm _ _ (by rwa [Hypo.le_iff] at h)
  have h2 : ∀ a b : Hypo F, Hypo.le a b = false → lt a.fx b.fx = false :=
    fun a b h => by rwa [Hypo.le_iff] at h
  refine ⟨⟨?_, ?_, ?_, ?_⟩, ?_⟩
  · intro j _ x y hx
    simp at hx
  · intro l h ho
    exact ⟨BinaryHeap.push_ordered ht h1 h2 h ho, BinaryHeap.push_perm _ _ _⟩
  · intro l _ h
    exact BinaryHeap.pop_none _ _ h
  · intro l h l' ho hp
    exact ⟨BinaryHeap.pop_ordered ht h1 h2 ho hp, BinaryHeap.pop_perm _ _ hp⟩
  · intro l h l' ho hp x hx
    obtain ⟨j, hj, rfl⟩ := List.mem_iff_getElem.1 hx
    refine BinaryHeap.ordered_root ht ?_ ho j h _ (BinaryHeap.pop_first _ hp) (List.getElem?_eq_getElem hj)
    intro a
    cases e : lt a.fx a.fx with
    | false => rfl
    | true => rw [hasymm _ _ e] at e; cases e

theorem exact_asymm (R : ExactArith F) (a b : F) (h : lt a b = true) : lt b a = false := by
  cases e : lt b a with
  | false => rfl
  | true => exact absurd ((R.lt _ _).1 e) (not_lt.2 (le_of_lt ((R.lt _ _).1 h)))

theorem exact_negtrans (R : ExactArith F) (a b c : F) (h1 : lt a b = false) (h2 : lt b c = false) : lt a c = false := by
  cases e : lt a c with
  | false => rfl
  | true =>
    have h3 := (R.lt _ _).1 e
    have h4 : R.val b ≤ R.val a := not_lt.1 fun h => by rw [(R.lt _ _).2 h] at h1; cases h1
    have h5 : R.val c ≤ R.val b := not_lt.1 fun h => by rw [(R.lt _ _).2 h] at h2; cases h2
    exact absurd h3 (not_lt.2 (le_trans h5 h4))

theorem agenda_exact (R : ExactArith F) :
    HeapLaws (agendaHeap F) AgendaOrdered ∧ HeapMax (agendaHeap F) AgendaOrdered :=
  agenda_ordered_laws (exact_asymm R) (exact_negtrans R)

/-- **C82** The order of hypotheses breaks its contract: of two with the same `fx`, and of one and itself, each is greater than
the other. -/
theorem C82_order (a b : Hypo F) (h1 : lt a.fx b.fx = false) (h2 : lt b.fx a.fx = false) :
    a.cmp b = .gt ∧ b.cmp a = .gt ∧ (lt a.fx a.fx = false → a.cmp a = .gt) := by
  unfold Hypo.cmp
  rw [h1, h2]
  refine ⟨rfl, rfl, ?_⟩
  intro h
  rw [h]
  rfl

/-- **C82** Yet the agenda is a priority queue: after any history of pushes and pops it holds what was pushed and not popped,
`pop` answers nothing exactly if it is empty, and what it answers is held and nothing held is greater.  All that is asked of
the numbers is that "less" is a strict weak order. -/
theorem C82_agenda (hasymm : ∀ a b : F, lt a b = true → lt b a = false)
    (htrans : ∀ a b c : F, lt a b = false → lt b c = false → lt a c = false)
    (state bag : List (Hypo F)) (h : QueueHistory (agendaHeap F) state bag) :
    state.Perm bag ∧ ((agendaHeap F).pop state = none ↔ bag = []) ∧
    ∀ x state', (agendaHeap F).pop state = some (x, state') → x ∈ bag ∧ ∀ y ∈ bag, lt x.fx y.fx = false := by
  classical
  obtain ⟨hl, hm⟩ := agenda_ordered_laws hasymm htrans
  have key : AgendaOrdered state ∧ state.Perm bag := by
    induction h with
    | new => exact ⟨hl.nil, .refl _⟩
    | push x _ ih =>
      obtain ⟨h1, h2⟩ := hl.push (h := x) ih.1
      exact ⟨h1, h2.trans (ih.2.cons x)⟩
    | @pop state bag state' x _ hp ih =>
      obtain ⟨h1, h2⟩ := hl.pop_some ih.1 hp
      refine ⟨h1, ?_⟩
      have h3 := (ih.2.symm.trans h2).erase x
      rw [List.erase_cons_head] at h3
      exact (h3.symm.trans (by convert List.Perm.refl _ using 2))
  obtain ⟨ho, hp⟩ := key
  refine ⟨hp, ⟨fun e => ?_, ?_⟩, ?_⟩
  · have := hl.pop_none ho e
    subst this
    exact hp.nil_eq.symm
  · rintro rfl
    have := hp.eq_nil
    subst this
    rfl
  · intro x state' e
    have h2 := (hl.pop_some ho e).2
    exact ⟨hp.mem_iff.1 (h2.mem_iff.2 List.mem_cons_self), fun y hy => hm ho e y (hp.mem_iff.2 hy)⟩

/-- **C82** With numbers of any kind, NaN included, nothing is lost or invented, and `pop` answers nothing exactly if the agenda
is empty. -/
theorem C82_any (state bag : List (Hypo F)) (h : QueueHistory (agendaHeap F) state bag) :
    state.Perm bag ∧ ((agendaHeap F).pop state = none ↔ bag = []) := by
  classical
  have hl : HeapLaws (agendaHeap F) (fun _ => True) := agenda_laws
  have hp : state.Perm bag := by
    induction h with
    | new => exact .refl _
    | push x _ ih => exact (hl.push (h := x) trivial).2.trans (ih.cons x)
    | @pop state bag state' x _ hp ih =>
      have h3 := (ih.symm.trans (hl.pop_some trivial hp).2).erase x
      rw [List.erase_cons_head] at h3
      exact (h3.symm.trans (by convert List.Perm.refl _ using 2))
  refine ⟨hp, fun e => ?_, ?_⟩
  · have := hl.pop_none trivial e
    subst this
    exact hp.nil_eq.symm
  · rintro rfl
    have := hp.eq_nil
    subst this
    rfl

/-- **C82** `nbest` with its actual agenda: C35 without assumptions about a priority queue. -/
theorem C82_nbest (R : ExactArith F)
    (p p' : VecPool) (l l₀ l₁ : Lattice F) (hist : History p l) (sentence : List UInt8) (es : List (Entry F))
    (hfrom : l.from_ sentence p = .ok (l₀, p')) (hes : Inside sentence.length es)
    (hins : es.foldlM (fun l e => Lattice.insert l e.pos e.id e.len e.score) l₀ = .ok l₁)
    (hid : ∀ e ∈ es, e.id ≠ 4294967294) (hnd : es.Nodup) (hgaps : NoGaps sentence.length es) (n : Nat) (hn : 2 ≤ n)
    (hcap : n ≤ 512 ∨ FewEndings sentence.length es 100000) :
    ∃ l' results paths fuel₀, (∀ fuel, fuel₀ ≤ fuel → l₁.nbest (agendaHeap F) n fuel = .ok (l', results)) ∧
      AreResults results paths ∧ paths.Nodup ∧ (∀ q ∈ paths, PathOf sentence.length es q) ∧ paths.length ≤ n ∧
      NonIncreasing paths ∧
      (∀ other, PathOf sentence.length es other → other ∉ paths →
        paths.length = n ∧ ∀ q ∈ paths, lt (entriesScore q) (entriesScore other) = false) :=
  C35_nbest R _ _ (agenda_exact R).1 (agenda_exact R).2 p p' l l₀ l₁ hist sentence es hfrom hes hins hid hnd hgaps n hn hcap

/-- **C82** (any numbers) `nbest` with its actual agenda ends without a panic, with segmentations of the sentence. -/
theorem C82_sound (p p' : VecPool) (l l₀ l₁ : Lattice F) (hist : History p l) (sentence : List UInt8) (es : List (Entry F))
    (hfrom : l.from_ sentence p = .ok (l₀, p')) (hes : Inside sentence.length es)
    (hins : es.foldlM (fun l e => Lattice.insert l e.pos e.id e.len e.score) l₀ = .ok l₁)
    (hid : ∀ e ∈ es, e.id ≠ 4294967294) (hnd : es.Nodup) (n : Nat) (hn : 2 ≤ n) :
    ∃ l' results paths fuel₀, (∀ fuel, fuel₀ ≤ fuel → l₁.nbest (agendaHeap F) n fuel = .ok (l', results)) ∧
      AreResults results paths ∧ paths.Nodup ∧ (∀ q ∈ paths, PathOf sentence.length es q) ∧ paths.length ≤ n :=
  C35_sound _ _ agenda_laws p p' l l₀ l₁ hist sentence es hfrom hes hins hid hnd n hn

/-! ### Non-vacuity -/

/-- Six hypotheses, three of them equal in `fx`, come out in order. -/
example : (let h := fun (n : Nat) (x : Int) => (⟨n, [], x, 0⟩ : Hypo Int)
    let s := [h 0 2, h 1 5, h 2 2, h 3 7, h 4 2, h 5 1].foldl (agendaHeap Int).push []
    (List.range 7).foldl (fun (st : List Int × List (Hypo Int)) _ => match (agendaHeap Int).pop st.2 with
      | none => st
      | some (x, s) => (st.1 ++ [x.fx], s)) ([], s)) = ([7, 5, 2, 2, 2, 1], []) := by decide +kernel
/-- The hypotheses of `C82_order` hold of different hypotheses with the same `fx`. -/
example : (⟨0, [], 2, 0⟩ : Hypo Int).cmp ⟨1, [], 2, 0⟩ = .gt ∧ (⟨1, [], 2, 0⟩ : Hypo Int).cmp ⟨0, [], 2, 0⟩ = .gt := by decide
/-- A history with a pop. -/
example : QueueHistory (agendaHeap Int) [⟨0, [], 2, 0⟩] [⟨0, [], 2, 0⟩] := by
  have h := ((QueueHistory.new (heap := agendaHeap Int)).push ⟨0, [], 2, 0⟩).push ⟨1, [], 5, 0⟩
  have := h.pop (h := ⟨1, [], 5, 0⟩) (state' := [⟨0, [], 2, 0⟩]) (by decide +kernel)
  simpa using this
/-- The three segmentations of `"aba"` by five tokens, best two first. -/
example : (((latticeOf [97, 98, 97] [(⟨0, 3, 1, -1⟩ : Entry Int), ⟨0, 2, 2, -4⟩, ⟨1, 1, 1, -2⟩, ⟨1, 0, 2, -1⟩, ⟨2, 3, 1, -1⟩]).nbest
    (agendaHeap Int) 2 100).toOption.map (fun r => r.2.map (fun x => x.map nodeEntry))) =
    some [[⟨0, 3, 1, -1⟩, ⟨1, 0, 2, -1⟩], [⟨0, 3, 1, -1⟩, ⟨1, 1, 1, -2⟩, ⟨2, 3, 1, -1⟩]] := by decide +kernel

end Tokengeex

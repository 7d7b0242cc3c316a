import Verif.Proofs.Counting
import Verif.Model.Prune
import Mathlib.Data.Multiset.Basic
import Mathlib.Algebra.Order.Group.Multiset
/-
Concurrent additions under locks when the order of additions matters, as it does for doubles: the final value is what the
additions give in some order.
-/
namespace Tokengeex.Parallel
variable {K M M' : Type}

/-- The same operation with related numbers. -/
inductive OpRel (S : M → M' → Prop) : Op K M → Op K M' → Prop
  | acquire (l : Nat) : OpRel S (.acquire l) (.acquire l)
  | load (k : K) : OpRel S (.load k) (.load k)
  | store (k : K) {n : M} {n' : M'} : S n n' → OpRel S (.store k n) (.store k n')
  | release (l : Nat) : OpRel S (.release l) (.release l)

/-- Workers at the same point. -/
def ThreadRel (R S : M → M' → Prop) (t : Thread K M) (t' : Thread K M') : Prop :=
  R t.reg t'.reg ∧ List.Forall₂ (OpRel S) t.ops t'.ops

/-- States that differ in their numbers only. -/
structure StateRel (R S : M → M' → Prop) (s : State K M) (s' : State K M') : Prop where
  val : ∀ k, R (s.val k) (s'.val k)
  owner : s.owner = s'.owner
  threads : List.Forall₂ (ThreadRel R S) s.threads s'.threads

theorem forall₂_get {α β : Type} {R : α → β → Prop} {l : List α} {l' : List β} (h : List.Forall₂ R l l') :
    ∀ {i : Nat} {a : α}, l[i]? = some a → ∃ b, l'[i]? = some b ∧ R a b := by
  induction h with
  | nil => intro i a h; simp at h
  | cons h1 _ ih =>
    intro i a h
    cases i with
    | zero => simp at h; subst h; exact ⟨_, rfl, h1⟩
    | succ i => simpa using ih (by simpa using h)

theorem forall₂_set {α β : Type} {R : α → β → Prop} {l : List α} {l' : List β} (h : List.Forall₂ R l l') {a : α} {b : β} (hab : R a b) :
    ∀ (i : Nat), List.Forall₂ R (l.set i a) (l'.set i b) := by
  induction h with
  | nil => intro i; exact .nil
  | cons h1 h2 ih =>
    intro i
    cases i with
    | zero => exact .cons hab h2
    | succ i => exact .cons h1 (ih i)

theorem step_rel [DecidableEq K] [Add M] [Add M'] {R S : M → M' → Prop} (hadd : ∀ a a' n n', R a a' → S n n' → R (a + n) (a' + n'))
    {s s₁ : State K M} {s' : State K M'} (h : StateRel R S s s') {i : Nat} (hs : s.step i = some s₁) :
    ∃ s₁', s'.step i = some s₁' ∧ StateRel R S s₁ s₁' := by
  unfold State.step at hs ⊢
  cases ht : s.threads[i]? with
  | none => rw [ht] at hs; simp at hs
  | some t =>
    obtain ⟨t', ht', hr, hops⟩ := forall₂_get h.threads ht
    rw [ht] at hs
    rw [ht']
    simp only at hs ⊢
    generalize t.ops = ops at hs hops
    generalize t'.ops = ops' at hops
    cases hops with
    | nil => simp at hs
    | @cons op op' rest rest' hop hrest =>
      cases hop with
      | acquire l =>
        simp only at hs ⊢
        by_cases hfree : s.owner l = none
        · rw [if_pos hfree] at hs
          rw [if_pos (by rw [← h.owner]; exact hfree)]
          simp only [Option.some.injEq] at hs
          subst hs
          exact ⟨_, rfl, h.val, by rw [h.owner], forall₂_set (a := ⟨t.reg, rest⟩) (b := ⟨t'.reg, rest'⟩) h.threads ⟨hr, hrest⟩ i⟩
        · rw [if_neg hfree] at hs
          simp at hs
      | load k =>
        simp only [Option.some.injEq] at hs
        subst hs
        exact ⟨_, rfl, h.val, h.owner, forall₂_set h.threads ⟨h.val k, hrest⟩ i⟩
      | @store k n n' hn =>
        simp only [Option.some.injEq] at hs
        subst hs
        refine ⟨_, rfl, ?_, h.owner, forall₂_set (a := ⟨t.reg, rest⟩) (b := ⟨t'.reg, rest'⟩) h.threads ⟨hr, hrest⟩ i⟩
        intro k'
        show R (if k' = k then _ else _) (if k' = k then _ else _)
        by_cases hk : k' = k
        · rw [if_pos hk, if_pos hk]
          exact hadd _ _ _ _ hr hn
        · rw [if_neg hk, if_neg hk]
          exact h.val k'
      | release l =>
        simp only [Option.some.injEq] at hs
        subst hs
        exact ⟨_, rfl, h.val, by rw [h.owner], forall₂_set (a := ⟨t.reg, rest⟩) (b := ⟨t'.reg, rest'⟩) h.threads ⟨hr, hrest⟩ i⟩

theorem run_rel [DecidableEq K] [Add M] [Add M'] {R S : M → M' → Prop} (hadd : ∀ a a' n n', R a a' → S n n' → R (a + n) (a' + n')) :
    ∀ (sched : List Nat) {s s₁ : State K M} {s' : State K M'}, StateRel R S s s' → s.run sched = some s₁ →
      ∃ s₁', s'.run sched = some s₁' ∧ StateRel R S s₁ s₁' := by
  intro sched
  induction sched with
  | nil => intro s s₁ s' h hs; simp only [State.run, Option.some.injEq] at hs; subst hs; exact ⟨s', rfl, h⟩
  | cons i sched ih =>
    intro s s₁ s' h hs
    simp only [State.run] at hs ⊢
    cases hst : s.step i with
    | none => rw [hst] at hs; simp at hs
    | some s₂ =>
      rw [hst] at hs
      obtain ⟨s₂', h1, h2⟩ := step_rel hadd h hst
      obtain ⟨s₁', h3, h4⟩ := ih h2 (by simpa using hs)
      exact ⟨s₁', by rw [h1]; exact h3, h4⟩

theorem finished_rel {R S : M → M' → Prop} {s : State K M} {s' : State K M'} (h : StateRel R S s s') (hf : s.Finished) : s'.Finished := by
  obtain ⟨_, _, ht⟩ := h
  unfold State.Finished at hf ⊢
  generalize s.threads = a at *
  generalize s'.threads = b at *
  induction ht with
  | nil => simp
  | cons h1 _ ih =>
    intro t ht
    rcases List.mem_cons.1 ht with rfl | ht
    · have h2 := h1.2
      rw [hf _ (List.mem_cons_self ..)] at h2
      exact List.forall₂_nil_left_iff.1 h2
    · exact ih (fun t ht => hf t (by simp [ht])) t ht

theorem init_rel [Zero M] [Zero M'] {R S : M → M' → Prop} (h0 : R 0 0) {ps : List (List (Op K M))} {ps' : List (List (Op K M'))}
    (h : List.Forall₂ (List.Forall₂ (OpRel S)) ps ps') : StateRel R S (State.init (fun _ => 0) ps) (State.init (fun _ => 0) ps') := by
  refine ⟨fun _ => h0, rfl, ?_⟩
  show List.Forall₂ _ (ps.map _) (ps'.map _)
  rw [List.forall₂_map_left_iff, List.forall₂_map_right_iff]
  exact h.imp fun _ _ h => ⟨h0, h⟩

theorem lockedAdds_rel {S : M → M' → Prop} (f : M → M') (hf : ∀ x, S x (f x)) (entries : List (K × M)) :
    List.Forall₂ (OpRel S) (lockedAdds entries) (lockedAdds (entries.map fun e => (e.1, f e.2))) := by
  refine .cons (.acquire 0) ?_
  induction entries with
  | nil => exact .cons (.release 0) .nil
  | cons e entries ih => exact .cons (.load _) (.cons (.store _ (hf _)) ih)

theorem opRel_flip {S : M → M' → Prop} {ops : List (Op K M)} {ops' : List (Op K M')} (h : List.Forall₂ (OpRel S) ops ops') :
    List.Forall₂ (OpRel (fun a b => S b a)) ops' ops := by
  refine h.flip.imp ?_
  intro a b h
  cases h with
  | acquire l => exact .acquire l
  | load k => exact .load k
  | store k h => exact .store k h
  | release l => exact .release l

section
variable [DecidableEq K] [Zero M] [Add M]

/-- `v` is what adding the numbers of `ms` to 0 in some order gives. -/
def AddsUp (v : M) (ms : Multiset M) : Prop := ∃ l : List M, (l : Multiset M) = ms ∧ v = l.foldl (· + ·) 0

theorem addsUp_zero : AddsUp (0 : M) 0 := ⟨[], rfl, rfl⟩

theorem addsUp_add {v x : M} {ms m : Multiset M} (h : AddsUp v ms) (hx : m = {x}) : AddsUp (v + x) (ms + m) := by
  obtain ⟨l, rfl, rfl⟩ := h
  subst hx
  refine ⟨l ++ [x], ?_, by rw [List.foldl_append]; rfl⟩
  rw [← Multiset.coe_add]
  rfl

/-- Locked additions, whatever the schedule: each entry ends up with the numbers listed for it added up in some order. -/
theorem run_addsUp (entries : List (List (K × M))) {sched : List Nat} {s : State K M}
    (hrun : (State.init (fun _ => 0) (entries.map lockedAdds)).run sched = some s) (hf : s.Finished) (k : K) :
    AddsUp (s.val k) ((entries.map fun e => entrySum k (e.map fun p => (p.1, ({p.2} : Multiset M)))).sum) := by
  have hrel : StateRel (AddsUp (M := M)) (fun x m => m = {x}) (State.init (fun _ => 0) (entries.map lockedAdds))
      (State.init (fun _ => (0 : Multiset M)) (entries.map fun e => lockedAdds (e.map fun p => (p.1, ({p.2} : Multiset M))))) := by
    apply init_rel addsUp_zero
    rw [List.forall₂_map_left_iff, List.forall₂_map_right_iff]
    exact List.forall₂_same.2 fun e _ => lockedAdds_rel (S := fun x m => m = {x}) (fun x => ({x} : Multiset M)) (fun _ => rfl) e
  obtain ⟨s', h1, h2⟩ := run_rel (fun a a' n n' h1 h2 => addsUp_add h1 h2) sched hrel hrun
  have h3 := run_total (fun _ => 0) (fun _ => (0 : Multiset M)) _ (by
    intro p hp
    obtain ⟨e, _, rfl⟩ := List.mem_map.1 hp
    exact safe_locked _) sched s' h1 (finished_rel h2 hf) k
  have h4 := h2.val k
  rw [h3, zero_add, List.map_map] at h4
  have : ((pending k) ∘ fun e : List (K × M) => lockedAdds (e.map fun p => (p.1, ({p.2} : Multiset M)))) =
      fun e => entrySum k (e.map fun p => (p.1, ({p.2} : Multiset M))) := by
    funext e
    exact pending_locked _ _
  rwa [this] at h4

/-- Locked additions can be completed. -/
theorem run_exists (entries : List (List (K × M))) :
    ∃ sched s, (State.init (fun _ => 0) (entries.map lockedAdds)).run sched = some s ∧ s.Finished := by
  obtain ⟨more, s, h3, h4⟩ := run_completes (fun _ => 0) (fun _ => (0 : Multiset M))
    (entries.map fun e => lockedAdds (e.map fun p => (p.1, ({p.2} : Multiset M)))) (by
    intro p hp
    obtain ⟨e, _, rfl⟩ := List.mem_map.1 hp
    exact safe_locked _) _ [] _ rfl (Nat.le_refl _)
  have hrel : StateRel (fun _ _ => True) (fun m x => m = {x})
      (State.init (fun _ => (0 : Multiset M)) (entries.map fun e => lockedAdds (e.map fun p => (p.1, ({p.2} : Multiset M)))))
      (State.init (fun _ => (0 : M)) (entries.map (lockedAdds (K := K)))) := by
    apply init_rel trivial
    rw [List.forall₂_map_left_iff, List.forall₂_map_right_iff]
    exact List.forall₂_same.2 fun e _ => opRel_flip (lockedAdds_rel (S := fun x m => m = {x}) (fun x => ({x} : Multiset M)) (fun _ => rfl) e)
  obtain ⟨s', h1, h2⟩ := run_rel (fun _ _ _ _ _ _ => trivial) _ hrel h3
  exact ⟨_, s', h1, finished_rel h2 h4⟩

end

/-- What `entrySum` collects from a vector. -/
theorem entrySum_vector {M : Type} (l : List M) (i : Nat) :
    entrySum i ((l.zipIdx.map fun p => (p.2, p.1)).map fun p => (p.1, ({p.2} : Multiset M))) = ((l[i]?.toList : List M) : Multiset M) := by
  have : ∀ (l : List M) (k : Nat), entrySum i (((l.zipIdx k).map fun p => (p.2, p.1)).map fun p => (p.1, ({p.2} : Multiset M))) =
      if i < k then 0 else ((l[i - k]?.toList : List M) : Multiset M) := by
    intro l
    induction l with
    | nil => intro k; simp [entrySum]
    | cons x l ih =>
      intro k
      have := ih (k + 1)
      unfold entrySum at this ⊢
      rw [List.zipIdx_cons, List.map_cons, List.map_cons, List.map_cons, List.sum_cons, this]
      rcases Nat.lt_trichotomy i k with h | h | h
      · rw [if_neg (by simp; omega), if_pos (by omega), if_pos h, add_zero]
      · subst h
        simp
      · rw [if_neg (by simp; omega), if_neg (by omega), if_neg (by omega), zero_add]
        rw [show i - k = (i - (k + 1)) + 1 by omega, List.getElem?_cons_succ]
  have h := this l 0
  simpa using h

end Tokengeex.Parallel

import Verif.Model.Parallel
import Mathlib.Algebra.BigOperators.Group.List.Basic
/-
Concurrent additions under locks add up, whatever the schedule.
-/
namespace Tokengeex.Parallel
variable {K M : Type}

/-- What a program adds to the entry of `k`. -/
def pending [DecidableEq K] [AddCommMonoid M] (k : K) : List (Op K M) → M
  | [] => 0
  | .store k' n :: rest => (if k' = k then n else 0) + pending k rest
  | _ :: rest => pending k rest

/-- A program that touches the entry of `k` only while holding the lock `guard k`, and that never holds two locks. -/
def Safe (guard : K → Nat) : Option Nat → Option K → List (Op K M) → Prop
  | held, loaded, [] => held = none ∧ loaded = none
  | held, loaded, .acquire l :: r => held = none ∧ loaded = none ∧ Safe guard (some l) none r
  | held, loaded, .load k :: r => held = some (guard k) ∧ loaded = none ∧ Safe guard held (some k) r
  | held, loaded, .store k _ :: r => held = some (guard k) ∧ loaded = some k ∧ Safe guard held none r
  | held, loaded, .release l :: r => held = some l ∧ loaded = none ∧ Safe guard none none r

theorem sum_set {α : Type} [AddCommMonoid M] (p : α → M) : ∀ (l : List α) (i : Nat) (t : α), l[i]? = some t →
    ∃ rest, (l.map p).sum = p t + rest ∧ ∀ t', ((l.set i t').map p).sum = p t' + rest := by
  intro l
  induction l with
  | nil => intro i t h; simp at h
  | cons a l ih =>
    intro i t h
    cases i with
    | zero =>
      simp at h; subst h
      exact ⟨(l.map p).sum, by simp, by simp⟩
    | succ i =>
      obtain ⟨rest, h1, h2⟩ := ih i t (by simpa using h)
      refine ⟨p a + rest, ?_, fun t' => ?_⟩
      · rw [List.map_cons, List.sum_cons, h1, add_left_comm]
      · rw [List.set_cons_succ, List.map_cons, List.sum_cons, h2 t', add_left_comm]

/-- The invariant. -/
structure Inv [DecidableEq K] [AddCommMonoid M] (guard : K → Nat) (total : K → M) (s : State K M)
    (held : Nat → Option Nat) (loaded : Nat → Option K) : Prop where
  safe : ∀ i t, s.threads[i]? = some t → Safe guard (held i) (loaded i) t.ops
  reg : ∀ i t k, s.threads[i]? = some t → loaded i = some k → t.reg = s.val k
  owns : ∀ l i, s.owner l = some i ↔ (i < s.threads.length ∧ held i = some l)
  sum : ∀ k, s.val k + (s.threads.map fun t => pending k t.ops).sum = total k

/-- A worker that has read an entry holds its lock. -/
theorem loaded_held {guard : K → Nat} {held : Option Nat} {k : K} : ∀ {ops : List (Op K M)},
    Safe guard held (some k) ops → held = some (guard k) := by
  intro ops h
  cases ops with
  | nil => simp [Safe] at h
  | cons op r =>
    cases op with
    | acquire l => simp [Safe] at h
    | load k' => simp [Safe] at h
    | store k' n =>
      simp only [Safe] at h
      obtain ⟨h1, h2, _⟩ := h
      cases h2; exact h1
    | release l => simp [Safe] at h

theorem getElem?_set' {α : Type} {l : List α} {i j : Nat} {a b : α} (h : (l.set i a)[j]? = some b) :
    (j = i ∧ b = a) ∨ (j ≠ i ∧ l[j]? = some b) := by
  rw [List.getElem?_set] at h
  by_cases hji : i = j
  · subst hji
    rw [if_pos rfl] at h
    by_cases hl : i < l.length
    · rw [if_pos hl] at h
      simp at h
      exact .inl ⟨rfl, h.symm⟩
    · rw [if_neg hl] at h
      simp at h
  · rw [if_neg hji] at h
    exact .inr ⟨fun e => hji e.symm, h⟩

theorem Inv.step [DecidableEq K] [AddCommMonoid M] {guard : K → Nat} {total : K → M} {s s' : State K M}
    {held : Nat → Option Nat} {loaded : Nat → Option K} (inv : Inv guard total s held loaded) {i : Nat}
    (h : s.step i = some s') : ∃ held' loaded', Inv guard total s' held' loaded' := by
  unfold State.step at h
  cases ht : s.threads[i]? with
  | none => rw [ht] at h; simp at h
  | some t =>
    rw [ht] at h
    simp only at h
    have hil : i < s.threads.length := (List.getElem?_eq_some_iff.1 ht).1
    have hsafe := inv.safe i t ht
    cases hops : t.ops with
    | nil => rw [hops] at h; simp at h
    | cons op rest =>
      rw [hops] at h hsafe
      cases op with
      | acquire l =>
        simp only at h
        by_cases hfree : s.owner l = none
        · rw [if_pos hfree] at h
          simp only [Option.some.injEq] at h
          subst h
          obtain ⟨hh, hld, hr⟩ := hsafe
          refine ⟨fun j => if j = i then some l else held j, fun j => if j = i then none else loaded j, ?_, ?_, ?_, ?_⟩
          · intro j t' hj
            rcases getElem?_set' hj with ⟨rfl, rfl⟩ | ⟨hne, hj⟩
            · simpa using hr
            · simpa [hne] using inv.safe j t' hj
          · intro j t' k hj hk
            rcases getElem?_set' hj with ⟨rfl, rfl⟩ | ⟨hne, hj⟩
            · simp at hk
            · simp only [hne, if_false] at hk
              exact inv.reg j t' k hj hk
          · intro l' j
            simp only [List.length_set]
            by_cases hl : l' = l
            · subst hl
              simp only [if_true, Option.some.injEq]
              constructor
              · intro e; subst e; exact ⟨hil, by simp⟩
              · rintro ⟨hj, hj2⟩
                by_cases hji : j = i
                · exact hji.symm
                · simp only [hji, if_false] at hj2
                  have := (inv.owns l' j).2 ⟨hj, hj2⟩
                  rw [hfree] at this; simp at this
            · simp only [hl, if_false]
              rw [inv.owns l' j]
              by_cases hji : j = i
              · subst hji
                simp only [if_true, hh]
                constructor
                · rintro ⟨_, h2⟩; simp at h2
                · rintro ⟨_, h2⟩; simp at h2; exact absurd h2.symm hl
              · simp only [hji, if_false]
          · intro k
            obtain ⟨r, h1, h2⟩ := sum_set (fun t : Thread K M => pending k t.ops) s.threads i t ht
            rw [h2, ← inv.sum k, h1, hops]
            rfl
        · rw [if_neg hfree] at h; simp at h
      | load k0 =>
        simp only [Option.some.injEq] at h
        subst h
        obtain ⟨hh, hld, hr⟩ := hsafe
        refine ⟨held, fun j => if j = i then some k0 else loaded j, ?_, ?_, ?_, ?_⟩
        · intro j t' hj
          rcases getElem?_set' hj with ⟨rfl, rfl⟩ | ⟨hne, hj⟩
          · simpa using hr
          · simpa [hne] using inv.safe j t' hj
        · intro j t' k hj hk
          rcases getElem?_set' hj with ⟨rfl, rfl⟩ | ⟨hne, hj⟩
          · simp at hk; subst hk; rfl
          · simp only [hne, if_false] at hk
            exact inv.reg j t' k hj hk
        · intro l' j
          simp only [List.length_set]
          exact inv.owns l' j
        · intro k
          obtain ⟨r, h1, h2⟩ := sum_set (fun t : Thread K M => pending k t.ops) s.threads i t ht
          show s.val k + _ = _
          rw [h2, ← inv.sum k, h1, hops]
          rfl
      | store k0 n =>
        simp only [Option.some.injEq] at h
        subst h
        obtain ⟨hh, hld, hr⟩ := hsafe
        refine ⟨held, fun j => if j = i then none else loaded j, ?_, ?_, ?_, ?_⟩
        · intro j t' hj
          rcases getElem?_set' hj with ⟨rfl, rfl⟩ | ⟨hne, hj⟩
          · simpa using hr
          · simpa [hne] using inv.safe j t' hj
        · intro j t' k hj hk
          rcases getElem?_set' hj with ⟨rfl, rfl⟩ | ⟨hne, hj'⟩
          · simp at hk
          · simp only [hne, if_false] at hk
            have hk0 : k ≠ k0 := by
              intro e; subst e
              have h1 := inv.safe j t' hj'
              rw [hk] at h1
              have h2 := loaded_held h1
              have h3 := (inv.owns (guard k) j).2 ⟨(List.getElem?_eq_some_iff.1 hj').1, h2⟩
              have h4 := (inv.owns (guard k) i).2 ⟨hil, hh⟩
              rw [h3] at h4
              simp at h4; exact hne h4
            show t'.reg = if k = k0 then _ else s.val k
            rw [if_neg hk0]
            exact inv.reg j t' k hj' hk
        · intro l' j
          simp only [List.length_set]
          exact inv.owns l' j
        · intro k
          obtain ⟨r, h1, h2⟩ := sum_set (fun t : Thread K M => pending k t.ops) s.threads i t ht
          show (if k = k0 then t.reg + n else s.val k) + _ = _
          rw [h2, ← inv.sum k, h1, hops]
          show _ = s.val k + ((if k0 = k then n else 0) + pending k rest + r)
          by_cases hk : k = k0
          · subst hk
            simp only [if_true]
            rw [inv.reg i t k ht hld, add_assoc, add_assoc]
          · rw [if_neg hk, if_neg (fun e => hk e.symm), zero_add]
      | release l =>
        simp only [Option.some.injEq] at h
        subst h
        obtain ⟨hh, hld, hr⟩ := hsafe
        refine ⟨fun j => if j = i then none else held j, fun j => if j = i then none else loaded j, ?_, ?_, ?_, ?_⟩
        · intro j t' hj
          rcases getElem?_set' hj with ⟨rfl, rfl⟩ | ⟨hne, hj⟩
          · simpa using hr
          · simpa [hne] using inv.safe j t' hj
        · intro j t' k hj hk
          rcases getElem?_set' hj with ⟨rfl, rfl⟩ | ⟨hne, hj⟩
          · simp at hk
          · simp only [hne, if_false] at hk
            exact inv.reg j t' k hj hk
        · intro l' j
          simp only [List.length_set]
          have hown := (inv.owns l i).2 ⟨hil, hh⟩
          by_cases hl : l' = l
          · subst hl
            simp only [if_true]
            constructor
            · intro e; simp at e
            · rintro ⟨hj, hj2⟩
              by_cases hji : j = i
              · simp [hji] at hj2
              · simp only [hji, if_false] at hj2
                have := (inv.owns l' j).2 ⟨hj, hj2⟩
                rw [hown] at this
                simp at this; exact absurd this.symm hji
          · simp only [hl, if_false]
            rw [inv.owns l' j]
            by_cases hji : j = i
            · subst hji
              simp only [if_true, hh]
              constructor
              · rintro ⟨_, h2⟩; simp at h2; exact absurd h2.symm hl
              · rintro ⟨_, h2⟩; simp at h2
            · simp only [hji, if_false]
        · intro k
          obtain ⟨r, h1, h2⟩ := sum_set (fun t : Thread K M => pending k t.ops) s.threads i t ht
          show s.val k + _ = _
          rw [h2, ← inv.sum k, h1, hops]
          rfl

theorem Inv.run [DecidableEq K] [AddCommMonoid M] {guard : K → Nat} {total : K → M} :
    ∀ (sched : List Nat) {s s' : State K M} {held : Nat → Option Nat} {loaded : Nat → Option K},
      Inv guard total s held loaded → s.run sched = some s' → ∃ held' loaded', Inv guard total s' held' loaded' := by
  intro sched
  induction sched with
  | nil =>
    intro s s' held loaded inv h
    simp only [State.run, Option.some.injEq] at h
    subst h; exact ⟨held, loaded, inv⟩
  | cons i sched ih =>
    intro s s' held loaded inv h
    simp only [State.run] at h
    cases hs : s.step i with
    | none => rw [hs] at h; simp at h
    | some s1 =>
      rw [hs] at h
      obtain ⟨held', loaded', inv'⟩ := inv.step hs
      exact ih inv' h

theorem Inv.init [DecidableEq K] [AddCommMonoid M] (guard : K → Nat) (val : K → M) (programs : List (List (Op K M)))
    (hp : ∀ p ∈ programs, Safe guard none none p) :
    Inv guard (fun k => val k + (programs.map (pending k)).sum) (State.init val programs) (fun _ => none)
      (fun _ => none) where
  safe := by
    intro i t h
    simp only [State.init, List.getElem?_map, Option.map_eq_some_iff] at h
    obtain ⟨p, h1, h2⟩ := h
    subst h2
    exact hp p (List.mem_of_getElem? h1)
  reg := by intro i t k _ h; simp at h
  owns := by intro l i; simp [State.init]
  sum := by intro k; simp [State.init, Function.comp_def]

/-- Whenever all workers have returned, every entry has grown by the sum of what the programs add to it. -/
theorem run_total [DecidableEq K] [AddCommMonoid M] (guard : K → Nat) (val : K → M) (programs : List (List (Op K M)))
    (hp : ∀ p ∈ programs, Safe guard none none p) (sched : List Nat) (s : State K M)
    (h : (State.init val programs).run sched = some s) (hf : s.Finished) (k : K) :
    s.val k = val k + (programs.map (pending k)).sum := by
  obtain ⟨held, loaded, inv⟩ := (Inv.init guard val programs hp).run sched h
  rw [← inv.sum k]
  have : (s.threads.map fun t => pending k t.ops) = s.threads.map fun _ => (0 : M) := by
    refine List.map_congr_left fun t ht => ?_
    rw [hf t ht]; rfl
  rw [this]
  simp

/-- No deadlock: as long as some worker has not returned, some worker can move. -/
theorem run_progress [DecidableEq K] [AddCommMonoid M] (guard : K → Nat) (val : K → M) (programs : List (List (Op K M)))
    (hp : ∀ p ∈ programs, Safe guard none none p) (sched : List Nat) (s : State K M)
    (h : (State.init val programs).run sched = some s) : s.Finished ∨ ∃ i, (s.step i).isSome = true := by
  obtain ⟨held, loaded, inv⟩ := (Inv.init guard val programs hp).run sched h
  by_cases hf : s.Finished
  · exact .inl hf
  · right
    unfold State.Finished at hf
    push Not at hf
    obtain ⟨t, ht, hne⟩ := hf
    obtain ⟨i, hi⟩ := List.mem_iff_getElem?.1 ht
    -- a worker holding a lock is never blocked
    have hold : ∀ j tj l, s.threads[j]? = some tj → held j = some l → (s.step j).isSome = true := by
      intro j tj l hj hh
      have hs := inv.safe j tj hj
      unfold State.step
      rw [hj]
      simp only
      cases hops : tj.ops with
      | nil => rw [hops, hh] at hs; simp [Safe] at hs
      | cons op rest =>
        cases op with
        | acquire l' => rw [hops, hh] at hs; simp [Safe] at hs
        | load _ => rfl
        | store _ _ => rfl
        | release _ => rfl
    cases hops : t.ops with
    | nil => exact absurd hops hne
    | cons op rest =>
      cases op with
      | acquire l =>
        cases ho : s.owner l with
        | none =>
          refine ⟨i, ?_⟩
          unfold State.step
          rw [hi]
          simp only [hops]
          rw [if_pos ho]
          rfl
        | some j =>
          obtain ⟨hj, hh⟩ := (inv.owns l j).1 ho
          exact ⟨j, hold j _ l (List.getElem?_eq_getElem hj) hh⟩
      | load k =>
        refine ⟨i, ?_⟩
        unfold State.step; rw [hi]; simp only [hops]; rfl
      | store k n =>
        refine ⟨i, ?_⟩
        unfold State.step; rw [hi]; simp only [hops]; rfl
      | release l =>
        refine ⟨i, ?_⟩
        unfold State.step; rw [hi]; simp only [hops]; rfl

/-- Every step uses up one operation. -/
theorem step_length [DecidableEq K] [Add M] {s s' : State K M} {i : Nat} (h : s.step i = some s') :
    (s'.threads.map fun t => t.ops.length).sum + 1 = (s.threads.map fun t => t.ops.length).sum := by
  unfold State.step at h
  cases ht : s.threads[i]? with
  | none => rw [ht] at h; simp at h
  | some t =>
    rw [ht] at h
    simp only at h
    obtain ⟨r, h1, h2⟩ := sum_set (fun t : Thread K M => t.ops.length) s.threads i t ht
    cases hops : t.ops with
    | nil => rw [hops] at h; simp at h
    | cons op rest =>
      rw [hops] at h
      rw [h1, hops]
      cases op with
      | acquire l =>
        simp only at h
        by_cases ho : s.owner l = none
        · rw [if_pos ho] at h
          simp only [Option.some.injEq] at h
          subst h
          show (List.map _ (s.threads.set i _)).sum + 1 = _
          rw [h2]; simp; omega
        · rw [if_neg ho] at h; simp at h
      | load k =>
        simp only [Option.some.injEq] at h
        subst h
        show (List.map _ (s.threads.set i _)).sum + 1 = _
        rw [h2]; simp; omega
      | store k n =>
        simp only [Option.some.injEq] at h
        subst h
        show (List.map _ (s.threads.set i _)).sum + 1 = _
        rw [h2]; simp; omega
      | release l =>
        simp only [Option.some.injEq] at h
        subst h
        show (List.map _ (s.threads.set i _)).sum + 1 = _
        rw [h2]; simp; omega

theorem run_length [DecidableEq K] [Add M] : ∀ (sched : List Nat) {s s' : State K M}, s.run sched = some s' →
    (s'.threads.map fun t => t.ops.length).sum + sched.length = (s.threads.map fun t => t.ops.length).sum := by
  intro sched
  induction sched with
  | nil => intro s s' h; simp only [State.run, Option.some.injEq] at h; subst h; simp
  | cons i sched ih =>
    intro s s' h
    simp only [State.run] at h
    cases hs : s.step i with
    | none => rw [hs] at h; simp at h
    | some s1 =>
      rw [hs] at h
      have h1 := step_length hs
      have h2 := ih h
      rw [List.length_cons]; omega

theorem run_append [DecidableEq K] [Add M] : ∀ (a b : List Nat) (s : State K M),
    s.run (a ++ b) = (s.run a).bind fun s' => s'.run b := by
  intro a
  induction a with
  | nil => intro b s; rfl
  | cons i a ih =>
    intro b s
    simp only [List.cons_append, State.run]
    cases s.step i with
    | none => rfl
    | some s1 => exact ih b s1

/-- Every partial run can be completed. -/
theorem run_completes [DecidableEq K] [AddCommMonoid M] (guard : K → Nat) (val : K → M) (programs : List (List (Op K M)))
    (hp : ∀ p ∈ programs, Safe guard none none p) : ∀ (n : Nat) (sched : List Nat) (s : State K M),
    (State.init val programs).run sched = some s → (s.threads.map fun t => t.ops.length).sum ≤ n →
    ∃ more s', s.run more = some s' ∧ s'.Finished := by
  intro n
  induction n with
  | zero =>
    intro sched s h hn
    rcases run_progress guard val programs hp sched s h with hf | ⟨i, hi⟩
    · exact ⟨[], s, rfl, hf⟩
    · obtain ⟨s1, hs1⟩ := Option.isSome_iff_exists.1 hi
      have := step_length hs1; omega
  | succ n ih =>
    intro sched s h hn
    rcases run_progress guard val programs hp sched s h with hf | ⟨i, hi⟩
    · exact ⟨[], s, rfl, hf⟩
    · obtain ⟨s1, hs1⟩ := Option.isSome_iff_exists.1 hi
      have hl := step_length hs1
      have h1 : (State.init val programs).run (sched ++ [i]) = some s1 := by
        rw [run_append, h]; simp [State.run, hs1]
      obtain ⟨more, s', h2, h3⟩ := ih (sched ++ [i]) s1 h1 (by omega)
      exact ⟨i :: more, s', by simp [State.run, hs1, h2], h3⟩

/-! ### The two disciplines of the code are safe -/

theorem pending_append [DecidableEq K] [AddCommMonoid M] (k : K) (a b : List (Op K M)) :
    pending k (a ++ b) = pending k a + pending k b := by
  induction a with
  | nil => simp [pending]
  | cons op a ih =>
    cases op with
    | acquire _ => simpa [pending] using ih
    | load _ => simpa [pending] using ih
    | store k' n => simp [pending, ih, add_assoc]
    | release _ => simpa [pending] using ih

/-- The sum of the numbers listed with key `k`. -/
def entrySum [DecidableEq K] [AddCommMonoid M] (k : K) (entries : List (K × M)) : M :=
  (entries.map fun e => if e.1 = k then e.2 else 0).sum

theorem pending_bumps [DecidableEq K] [AddCommMonoid M] (k : K) (entries : List (K × M)) :
    pending k (entries.flatMap bump) = entrySum k entries := by
  induction entries with
  | nil => rfl
  | cons e entries ih =>
    rw [List.flatMap_cons, pending_append, ih]
    simp [bump, pending, entrySum]

theorem pending_locked [DecidableEq K] [AddCommMonoid M] (k : K) (entries : List (K × M)) :
    pending k (lockedAdds entries) = entrySum k entries := by
  show pending k (entries.flatMap bump ++ [Op.release 0]) = _
  rw [pending_append, pending_bumps]
  simp [pending]

theorem pending_sharded [DecidableEq K] [AddCommMonoid M] (shard : K → Nat) (k : K) (entries : List (K × M)) :
    pending k (shardedAdds shard entries) = entrySum k entries := by
  unfold shardedAdds
  induction entries with
  | nil => rfl
  | cons e entries ih =>
    rw [List.flatMap_cons, pending_append, ih]
    simp [bump, pending, entrySum]

theorem safe_locked (entries : List (K × M)) : Safe (fun _ => 0) none none (lockedAdds entries) := by
  refine ⟨rfl, rfl, ?_⟩
  induction entries with
  | nil => exact ⟨rfl, rfl, rfl, rfl⟩
  | cons e entries ih => exact ⟨rfl, rfl, rfl, rfl, ih⟩

theorem safe_sharded (shard : K → Nat) (entries : List (K × M)) :
    Safe shard none none (shardedAdds shard entries) := by
  induction entries with
  | nil => exact ⟨rfl, rfl⟩
  | cons e entries ih => exact ⟨rfl, rfl, rfl, rfl, rfl, rfl, rfl, rfl, ih⟩

theorem entrySum_perm [DecidableEq K] [AddCommMonoid M] (k : K) {a b : List (K × M)} (h : a.Perm b) :
    entrySum k a = entrySum k b := (h.map _).sum_eq

/-! ### Chunks -/

theorem chunks_flatten {α : Type} (n : Nat) (hn : 0 < n) (l : List α) : (chunks n l).flatten = l := by
  induction hl : l.length using Nat.strongRecOn generalizing l with
  | _ m ih =>
    unfold chunks
    by_cases h : n = 0 ∨ l = []
    · rw [dif_pos h]
      rcases h with h | h
      · omega
      · subst h; rfl
    · rw [dif_neg h, List.flatten_cons]
      simp only [not_or] at h
      have hpos : 0 < l.length := List.length_pos_iff.2 h.2
      rw [ih (l.drop n).length (by rw [List.length_drop]; omega) (l.drop n) rfl, List.take_append_drop]

theorem chunks_ne {α : Type} (n : Nat) (hn : 0 < n) (l : List α) : ∀ c ∈ chunks n l, c ≠ [] ∧ c.length ≤ n := by
  induction hl : l.length using Nat.strongRecOn generalizing l with
  | _ m ih =>
    unfold chunks
    by_cases h : n = 0 ∨ l = []
    · rw [dif_pos h]; simp
    · rw [dif_neg h]
      simp only [not_or] at h
      have hpos : 0 < l.length := List.length_pos_iff.2 h.2
      intro c hc
      rcases List.mem_cons.1 hc with rfl | hc
      · refine ⟨?_, by rw [List.length_take]; omega⟩
        intro e
        have := congrArg List.length e
        rw [List.length_take] at this
        simp only [List.length_nil] at this
        omega
      · exact ih (l.drop n).length (by rw [List.length_drop]; omega) (l.drop n) rfl c hc

end Tokengeex.Parallel

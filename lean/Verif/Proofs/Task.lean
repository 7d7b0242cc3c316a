import Verif.Model.Task
import Verif.Proofs.Parallel
/-
Invariants of the progress counters.
-/
namespace Tokengeex
open Tokengeex.Task

namespace Task

/-- Samples a worker still has to report. -/
def Worker.samplesLeft : Worker → Nat
  | .working n _ _ => n
  | _ => 0

/-- Bytes a worker still has to report. -/
def Worker.bytesLeft : Worker → Nat
  | .working _ b sizes => b + sizes.sum
  | .halfway b => b
  | .done => 0

/-- The invariant. -/
structure Inv (chunks : List (List Nat)) (s : State) : Prop where
  num : s.numSamples = chunks.flatten.length
  samples : s.processed + (s.workers.map Worker.samplesLeft).sum = chunks.flatten.length
  bytes : s.bytes + (s.workers.map Worker.bytesLeft).sum = chunks.flatten.sum
  fin : s.finished = true → ∀ w ∈ s.workers, w = .done

theorem Inv.init (chunks : List (List Nat)) : Inv chunks (State.init chunks) where
  num := rfl
  samples := by
    simp only [State.init, List.map_map, Nat.zero_add, List.length_flatten]
    rfl
  bytes := by
    simp only [State.init, List.map_map, Nat.zero_add, List.sum_flatten]
    congr 1
    refine List.map_congr_left fun c _ => ?_
    simp [Worker.bytesLeft]
  fin := by simp [State.init]

theorem Inv.step {chunks : List (List Nat)} {s s' : State} {a : Actor} (inv : Inv chunks s) (h : s.step a = some s') :
    Inv chunks s' := by
  cases a with
  | worker i =>
    simp only [State.step, State.workerStep] at h
    cases hw : s.workers[i]? with
    | none => rw [hw] at h; simp at h
    | some w =>
      rw [hw] at h
      obtain ⟨r1, e1, f1⟩ := Parallel.sum_set Worker.samplesLeft s.workers i w hw
      obtain ⟨r2, e2, f2⟩ := Parallel.sum_set Worker.bytesLeft s.workers i w hw
      have i1 := inv.samples
      have i2 := inv.bytes
      rw [e1] at i1
      rw [e2] at i2
      have hfin : w ≠ .done → s.finished = true → False := by
        intro hne hf
        exact hne (inv.fin hf w (List.mem_of_getElem? hw))
      cases w with
      | working n b sizes =>
        have hnf : s.finished = true → False := hfin (by simp)
        cases sizes with
        | nil =>
          simp only [Option.some.injEq] at h
          subst h
          refine ⟨inv.num, ?_, ?_, fun hf => (hnf hf).elim⟩
          · show s.processed + n + _ = _
            rw [f1]; simp only [Worker.samplesLeft] at i1 ⊢; omega
          · show s.bytes + _ = _
            rw [f2]; simp only [Worker.bytesLeft, List.sum_nil] at i2 ⊢; omega
        | cons size sizes =>
          simp only [Option.some.injEq] at h
          subst h
          refine ⟨inv.num, ?_, ?_, fun hf => (hnf hf).elim⟩
          · show s.processed + _ = _
            rw [f1]; simp only [Worker.samplesLeft] at i1 ⊢; omega
          · show s.bytes + _ = _
            rw [f2]; simp only [Worker.bytesLeft, List.sum_cons] at i2 ⊢; omega
      | halfway b =>
        have hnf : s.finished = true → False := hfin (by simp)
        simp only [Option.some.injEq] at h
        subst h
        refine ⟨inv.num, ?_, ?_, fun hf => (hnf hf).elim⟩
        · show s.processed + _ = _
          rw [f1]; simp only [Worker.samplesLeft] at i1 ⊢; omega
        · show s.bytes + b + _ = _
          rw [f2]; simp only [Worker.bytesLeft] at i2 ⊢; omega
      | done => simp at h
  | monitor =>
    simp only [State.step, State.monitorStep] at h
    cases hm : s.monitor with
    | stopped b => rw [hm] at h; simp at h
    | _ =>
      rw [hm] at h
      simp only [Option.some.injEq] at h
      subst h
      exact ⟨inv.num, inv.samples, inv.bytes, inv.fin⟩
  | main =>
    simp only [State.step] at h
    by_cases hd : s.workers.all (· == .done) = true
    · rw [if_pos hd] at h
      simp only [Option.some.injEq] at h
      subst h
      refine ⟨inv.num, inv.samples, inv.bytes, fun _ w hw => ?_⟩
      simpa using List.all_eq_true.1 hd w hw
    · rw [if_neg hd] at h; simp at h

theorem Inv.run {chunks : List (List Nat)} : ∀ (sched : List Actor) {s s' : State}, Inv chunks s →
    s.run sched = some s' → Inv chunks s' := by
  intro sched
  induction sched with
  | nil => intro s s' inv h; simp only [State.run, Option.some.injEq] at h; subst h; exact inv
  | cons a sched ih =>
    intro s s' inv h
    simp only [State.run] at h
    cases hs : s.step a with
    | none => rw [hs] at h; simp at h
    | some s1 => rw [hs] at h; exact ih (inv.step hs) h

end Task

/-- The workers correspond to the chunks. -/
def WorkersOf (chunks : List (List Nat)) (ws : List Worker) : Prop :=
  ws.length = chunks.length ∧ ∀ (i n b : Nat) (sizes : List Nat), ws[i]? = some (.working n b sizes) →
    ∃ c, chunks[i]? = some c ∧ c.length = n

/-- In every reachable state the workers correspond to the chunks. -/
theorem workers_chunks (chunks : List (List Nat)) : ∀ (sched : List Actor) (s s' : State),
    WorkersOf chunks s.workers → s.run sched = some s' → WorkersOf chunks s'.workers := by
  intro sched
  induction sched with
  | nil => intro s s' inv h; simp only [State.run, Option.some.injEq] at h; subst h; exact inv
  | cons a sched ih =>
    intro s s' inv h
    simp only [State.run] at h
    cases hs : s.step a with
    | none => rw [hs] at h; simp at h
    | some s1 =>
      rw [hs] at h
      refine ih s1 s' ?_ h
      cases a with
      | worker i =>
        simp only [State.step, State.workerStep] at hs
        cases hw : s.workers[i]? with
        | none => rw [hw] at hs; simp at hs
        | some w =>
          rw [hw] at hs
          cases w with
          | working n b sizes =>
            cases sizes with
            | nil =>
              simp only [Option.some.injEq] at hs
              subst hs
              refine ⟨by simpa using inv.1, fun j n' b' sizes' hj => ?_⟩
              rcases Parallel.getElem?_set' hj with ⟨_, e⟩ | ⟨_, hj⟩
              · simp at e
              · exact inv.2 j n' b' sizes' hj
            | cons size sizes =>
              simp only [Option.some.injEq] at hs
              subst hs
              refine ⟨by simpa using inv.1, fun j n' b' sizes' hj => ?_⟩
              rcases Parallel.getElem?_set' hj with ⟨hji, e⟩ | ⟨_, hj⟩
              · subst hji
                simp only [Worker.working.injEq] at e
                obtain ⟨rfl, _, _⟩ := e
                exact inv.2 _ _ _ _ hw
              · exact inv.2 j n' b' sizes' hj
          | halfway b =>
            simp only [Option.some.injEq] at hs
            subst hs
            refine ⟨by simpa using inv.1, fun j n' b' sizes' hj => ?_⟩
            rcases Parallel.getElem?_set' hj with ⟨_, e⟩ | ⟨_, hj⟩
            · simp at e
            · exact inv.2 j n' b' sizes' hj
          | done => simp at hs
      | monitor =>
        simp only [State.step, State.monitorStep] at hs
        cases hm : s.monitor with
        | stopped b => rw [hm] at hs; simp at hs
        | _ =>
          rw [hm] at hs
          simp only [Option.some.injEq] at hs
          subst hs
          exact inv
      | main =>
        simp only [State.step] at hs
        by_cases hd : s.workers.all (· == .done) = true
        · rw [if_pos hd] at hs
          simp only [Option.some.injEq] at hs
          subst hs
          exact inv
        · rw [if_neg hd] at hs; simp at hs

end Tokengeex

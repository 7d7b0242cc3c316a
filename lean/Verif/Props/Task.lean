import Verif.Proofs.Task
/-
Progress counters (C52).
-/
namespace Tokengeex
open Tokengeex.Task

/-- The worker has added the number of its samples to the counter. -/
def Spec.reported : Worker → Bool
  | .working _ _ _ => false
  | _ => true

/-- **C52** (counters) At every instant the processed-sample counter is the sum of the sizes of the chunks whose workers
have reported, it never exceeds the number of samples, and the byte counter never exceeds the number of bytes; once all
workers have finished both are exact. -/
theorem C52_counters (chunks : List (List Nat)) (sched : List Actor) (s : State)
    (h : (State.init chunks).run sched = some s) :
    s.processed = ((s.workers.zip chunks).map fun p => if Spec.reported p.1 then p.2.length else 0).sum ∧
    s.processed ≤ chunks.flatten.length ∧ s.bytes ≤ chunks.flatten.sum ∧
    ((∀ w ∈ s.workers, w = .done) → s.processed = chunks.flatten.length ∧ s.bytes = chunks.flatten.sum) := by
  have inv := (Inv.init chunks).run sched h
  have hw := workers_chunks chunks sched _ s (by
    refine ⟨by simp [State.init], fun i n b sizes hi => ?_⟩
    simp only [State.init, List.getElem?_map, Option.map_eq_some_iff, Worker.working.injEq] at hi
    obtain ⟨c, h1, h2, _⟩ := hi
    exact ⟨c, h1, h2⟩) h
  refine ⟨?_, by have := inv.samples; omega, by have := inv.bytes; omega, ?_⟩
  · have key : ∀ (ws : List Worker) (cs : List (List Nat)), ws.length = cs.length →
        (∀ (i n b : Nat) (sizes : List Nat), ws[i]? = some (.working n b sizes) → ∃ c, cs[i]? = some c ∧ c.length = n) →
        ((ws.zip cs).map fun p => if Spec.reported p.1 then p.2.length else 0).sum + (ws.map Worker.samplesLeft).sum =
          cs.flatten.length := by
      intro ws
      induction ws with
      | nil => intro cs hl _; cases cs <;> simp at hl ⊢
      | cons w ws ih =>
        intro cs hl hc
        cases cs with
        | nil => simp at hl
        | cons c cs =>
          have h1 := ih cs (by simpa using hl) (fun i n b sizes hi => by
            simpa using hc (i + 1) n b sizes (by simpa using hi))
          rw [List.zip_cons_cons, List.map_cons, List.sum_cons, List.map_cons, List.sum_cons, List.flatten_cons,
            List.length_append, ← h1]
          cases w with
          | working n b sizes =>
            obtain ⟨c', hc1, hc2⟩ := hc 0 n b sizes rfl
            simp at hc1; subst hc1
            simp [Spec.reported, Worker.samplesLeft]; omega
          | halfway b => simp [Spec.reported, Worker.samplesLeft]; omega
          | done => simp [Spec.reported, Worker.samplesLeft]; omega
    have h1 := key s.workers chunks hw.1 hw.2
    have h2 := inv.samples
    omega
  · intro hd
    have h1 : (s.workers.map Worker.samplesLeft).sum = 0 := by
      refine List.sum_eq_zero fun x hx => ?_
      obtain ⟨w, hw, rfl⟩ := List.mem_map.1 hx
      rw [hd w hw]; rfl
    have h2 : (s.workers.map Worker.bytesLeft).sum = 0 := by
      refine List.sum_eq_zero fun x hx => ?_
      obtain ⟨w, hw, rfl⟩ := List.mem_map.1 hx
      rw [hd w hw]; rfl
    have h3 := inv.samples
    have h4 := inv.bytes
    omega

/-- From any state with the final counters the monitor stops. -/
theorem Task.monitor_stops (chunks : List (List Nat)) (s : State) (hp : s.processed = chunks.flatten.length)
    (hb : s.bytes = chunks.flatten.sum) (hn : s.numSamples = chunks.flatten.length) :
    (∃ b, s.monitor = .stopped b) ∨
    ∃ k s', k ≤ 8 ∧ s.run (List.replicate k .monitor) = some s' ∧ s'.monitor = .stopped chunks.flatten.sum := by
  have fromReporting : ∀ s : State, s.bytes = chunks.flatten.sum → s.monitor = .reporting →
      ∃ s', s.run (List.replicate 1 .monitor) = some s' ∧ s'.monitor = .stopped chunks.flatten.sum := by
    intro s hb hm
    exact ⟨{ s with monitor := .stopped s.bytes }, by simp [State.run, State.step, State.monitorStep, hm], by simp [hb]⟩
  have fromLoading : ∀ s : State, s.processed = chunks.flatten.length → s.numSamples = chunks.flatten.length →
      s.bytes = chunks.flatten.sum → s.monitor = .loading →
      ∃ s', s.run (List.replicate 4 .monitor) = some s' ∧ s'.monitor = .stopped chunks.flatten.sum := by
    intro s hp hn hb hm
    refine ⟨{ s with monitor := .stopped s.bytes }, ?_, by simp [hb]⟩
    simp [State.run, State.step, State.monitorStep, hm, hp, hn, List.replicate]
  have fromSleeping : ∀ s : State, s.processed = chunks.flatten.length → s.numSamples = chunks.flatten.length →
      s.bytes = chunks.flatten.sum → s.monitor = .sleeping →
      ∃ k s', k ≤ 6 ∧ s.run (List.replicate k .monitor) = some s' ∧ s'.monitor = .stopped chunks.flatten.sum := by
    intro s hp hn hb hm
    by_cases hf : s.finished = true
    · refine ⟨3, { s with monitor := .stopped s.bytes }, by omega, ?_, by simp [hb]⟩
      simp [State.run, State.step, State.monitorStep, hm, hf, List.replicate]
    · refine ⟨6, { s with monitor := .stopped s.bytes }, by omega, ?_, by simp [hb]⟩
      simp [State.run, State.step, State.monitorStep, hm, hf, hp, hn, List.replicate]
  cases hm : s.monitor with
  | stopped b => exact .inl ⟨b, rfl⟩
  | sleeping =>
    obtain ⟨k, s', h1, h2, h3⟩ := fromSleeping s hp hn hb hm
    exact .inr ⟨k, s', by omega, h2, h3⟩
  | checking =>
    right
    by_cases hf : s.finished = true
    · exact ⟨2, { s with monitor := .stopped s.bytes }, by omega,
        by simp [State.run, State.step, State.monitorStep, hm, hf, List.replicate], by simp [hb]⟩
    · exact ⟨5, { s with monitor := .stopped s.bytes }, by omega,
        by simp [State.run, State.step, State.monitorStep, hm, hf, hp, hn, List.replicate], by simp [hb]⟩
  | loading =>
    obtain ⟨s', h2, h3⟩ := fromLoading s hp hn hb hm
    exact .inr ⟨4, s', by omega, h2, h3⟩
  | loadingBytes n =>
    right
    by_cases hge : n ≥ s.numSamples
    · exact ⟨3, { s with monitor := .stopped s.bytes }, by omega,
        by simp [State.run, State.step, State.monitorStep, hm, hge, List.replicate], by simp [hb]⟩
    · obtain ⟨k, s', h1, h2, h3⟩ := fromSleeping { s with monitor := .sleeping } hp hn hb rfl
      refine ⟨k + 2, s', by omega, ?_, h3⟩
      rw [show k + 2 = (k + 1) + 1 from rfl, List.replicate_succ, List.replicate_succ]
      simp only [State.run, State.step, State.monitorStep, hm, if_neg hge, Option.bind_some]
      exact h2
  | deciding n b =>
    right
    by_cases hge : n ≥ s.numSamples
    · exact ⟨2, { s with monitor := .stopped s.bytes }, by omega,
        by simp [State.run, State.step, State.monitorStep, hm, hge, List.replicate], by simp [hb]⟩
    · obtain ⟨k, s', h1, h2, h3⟩ := fromSleeping { s with monitor := .sleeping } hp hn hb rfl
      refine ⟨k + 1, s', by omega, ?_, h3⟩
      rw [List.replicate_succ]
      simp only [State.run, State.step, State.monitorStep, hm, if_neg hge, Option.bind_some]
      exact h2
  | reporting =>
    obtain ⟨s', h2, h3⟩ := fromReporting s hb hm
    exact .inr ⟨1, s', by omega, h2, h3⟩

/-- **C52** (monitor) Once all workers have finished, the monitor stops after at most eight more steps of its own,
whether or not `Task::finish` is ever called, and it reports the exact number of bytes. -/
theorem C52_monitor (chunks : List (List Nat)) (sched : List Actor) (s : State)
    (h : (State.init chunks).run sched = some s) (hd : ∀ w ∈ s.workers, w = .done) :
    (∃ b, s.monitor = .stopped b) ∨
    ∃ k s', k ≤ 8 ∧ s.run (List.replicate k .monitor) = some s' ∧ s'.monitor = .stopped chunks.flatten.sum := by
  obtain ⟨_, _, _, hex⟩ := C52_counters chunks sched s h
  obtain ⟨hp, hb⟩ := hex hd
  exact Task.monitor_stops chunks s hp hb ((Inv.init chunks).run sched h).num

/-- **C52** (what does not hold) While workers are still running, the monitor may report fewer bytes than are processed:
it may see the last sample counted before the bytes of its chunk are added. -/
theorem C52_bytes_false : ¬ ∀ (chunks : List (List Nat)) (sched : List Actor) (s : State) (b : Nat),
    (State.init chunks).run sched = some s → s.monitor = .stopped b → b = chunks.flatten.sum := by
  intro h
  have := h [[10]] [.worker 0, .worker 0, .monitor, .monitor, .monitor, .monitor, .monitor, .monitor]
    { numSamples := 1, processed := 1, bytes := 0, finished := false, workers := [.halfway 10], monitor := .stopped 0 } 0
    (by decide) rfl
  revert this; decide

/-! ### Non-vacuity -/

/-- Two workers, the monitor reads the counter in between. -/
example : ((State.init [[3, 4], [5]]).run
    [.worker 0, .monitor, .worker 1, .worker 1, .monitor, .monitor, .worker 0, .worker 0, .worker 1, .monitor, .monitor,
      .worker 0]).map (fun s => (s.processed, s.bytes, s.monitor)) = some (3, 12, .sleeping) := by decide

end Tokengeex

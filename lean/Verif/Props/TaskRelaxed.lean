import Verif.Proofs.TaskRelaxed
import Verif.Props.Task
/-
C52 with relaxed atomics: whatever the monitor misses.
-/
namespace Tokengeex
open Tokengeex.Task
open Relation (ReflTransGen)

/-- **C52** (relaxed) The program's atomics are relaxed, so the monitor may see old values of a counter, and of one counter
older than of the other.  Still, whatever it sees: the counters are as in `C52_counters`; the progress messages never go back
and are all for more than none and less than all of the samples, and for no more than are processed; the monitor ends only after
`Task::finish` was called or all samples were counted, and reports no more bytes than there are. -/
theorem C52_relaxed (chunks : List (List Nat)) (w : Weak) (h : ReflTransGen Weak.Step (Weak.init chunks) w) :
    w.now.processed = ((w.now.workers.zip chunks).map fun p => if Spec.reported p.1 then p.2.length else 0).sum ∧
    w.now.processed ≤ chunks.flatten.length ∧ w.now.bytes ≤ chunks.flatten.sum ∧
    ((∀ v ∈ w.now.workers, v = .done) → w.now.processed = chunks.flatten.length ∧ w.now.bytes = chunks.flatten.sum) ∧
    w.messages.Pairwise (· ≤ ·) ∧
    (∀ m ∈ w.messages, 0 < m ∧ m < chunks.flatten.length ∧ m ≤ w.now.processed) ∧
    (∀ b, w.now.monitor = .stopped b →
      b ≤ w.now.bytes ∧ (w.now.finished = true ∨ w.now.processed = chunks.flatten.length)) := by
  obtain ⟨l, s, h1, h2⟩ := Weak.sched h
  obtain ⟨c1, c2, c3, c4⟩ := C52_counters chunks l s h1
  have inv := Weak.Inv.all h
  have hn := (Weak.inv h).num
  have hp : w.now.processed ≤ chunks.flatten.length := by rw [h2]; exact c2
  refine ⟨by rw [h2]; exact c1, hp, by rw [h2]; exact c3, by rw [h2]; exact c4, inv.sorted, ?_, ?_⟩
  · intro m hm
    obtain ⟨h3, h4, n, h5, h6⟩ := inv.messages m hm
    exact ⟨h3, by omega, Nat.le_trans h6 (inv.hist.le (List.mem_of_getElem? h5))⟩
  · intro b hb
    refine ⟨inv.histBytes.le (inv.stopped b hb), ?_⟩
    rcases inv.stop (.inr ⟨b, hb⟩) with h3 | h3
    · exact .inl h3
    · exact .inr (by omega)

/-- **C52** (relaxed) Everything that can happen when stores are visible at once can happen here too, and the monitor is never
stuck: once the workers are done, whatever it has missed so far, it stops after at most eight of its own steps if it sees
the latest values from then on, and then reports the exact number of bytes. -/
theorem C52_relaxed_monitor (chunks : List (List Nat)) :
    (∀ l s, (State.init chunks).run l = some s → ∃ w, ReflTransGen Weak.Step (Weak.init chunks) w ∧ w.now = s) ∧
    ∀ w, ReflTransGen Weak.Step (Weak.init chunks) w → (∀ v ∈ w.now.workers, v = .done) →
      (∃ b, w.now.monitor = .stopped b) ∨
      ∃ k w', k ≤ 8 ∧ w.now.run (List.replicate k .monitor) = some w'.now ∧ ReflTransGen Weak.Step w w' ∧
        w'.now.monitor = .stopped chunks.flatten.sum := by
  refine ⟨fun l s h => Weak.simRun l (Weak.Inv.init chunks) h, fun w h hd => ?_⟩
  obtain ⟨_, _, _, h1, _⟩ := C52_relaxed chunks w h
  obtain ⟨hp, hb⟩ := h1 hd
  rcases Task.monitor_stops chunks w.now hp hb (Weak.inv h).num with h2 | ⟨k, s', h2, h3, h4⟩
  · exact .inl h2
  · obtain ⟨w', h5, rfl⟩ := Weak.simRun _ (Weak.Inv.all h) h3
    exact .inr ⟨k, w', h2, h3, h5, h4⟩

/-- **C52** (what does not hold) With relaxed atomics the number of bytes in the last message may be too small even when the
workers are done, `Task::finish` was called and the monitor has seen that. -/
theorem C52_relaxed_bytes_false : ¬ ∀ (chunks : List (List Nat)) (w : Weak) (b : Nat),
    ReflTransGen Weak.Step (Weak.init chunks) w → w.now.finished = true → w.now.monitor = .stopped b →
    b = chunks.flatten.sum := by
  intro h
  have h1 : ReflTransGen Weak.Step (Weak.init [[10]])
      { now := { numSamples := 1, processed := 1, bytes := 10, finished := true, workers := [.done], monitor := .stopped 0 }
        samples := [0, 0, 1, 1]
        bytes := [0, 0, 0, 10]
        sawSamples := 0
        sawBytes := 0
        messages := [] } := by
    refine .tail (.tail (.tail (.tail (.tail (.tail (.tail .refl (.worker 0 rfl)) (.worker 0 rfl)) (.worker 0 rfl)) (.main ?_))
      (.wake rfl)) (.finished rfl rfl)) (.report 0 0 rfl (by decide) rfl)
    intro v hv
    simpa [Weak.init, State.init] using hv
  have := h [[10]] _ 0 h1 rfl rfl
  revert this; decide

/-! ### Non-vacuity -/

/-- Three workers of one sample each.  The monitor says one third, and then, when all three are counted, still one third. -/
example : ∃ w, ReflTransGen Weak.Step (Weak.init [[3], [4], [5]]) w ∧ w.now.processed = 3 ∧ w.messages = [1, 1] := by
  refine ⟨_, .tail (.tail (.tail (.tail (.tail (.tail (.tail (.tail (.tail (.tail (.tail (.tail (.tail (.tail (.tail (.tail
    .refl (.worker 0 rfl)) (.worker 0 rfl)) (.wake rfl)) (.unfinished rfl)) (.load 2 1 rfl (by decide) rfl))
    (.loadBytes 2 1 0 rfl (by decide) rfl)) (.decided 1 0 rfl)) (.worker 1 rfl)) (.worker 2 rfl)) (.worker 1 rfl))
    (.worker 2 rfl)) (.wake rfl)) (.unfinished rfl)) (.load 3 1 rfl (by decide) rfl))
    (.loadBytes 2 1 0 rfl (by decide) rfl)) (.decided 1 0 rfl), rfl, rfl⟩

end Tokengeex

import Verif.Model.TaskRelaxed
import Verif.Proofs.Task
import Mathlib.Logic.Relation
/-
Invariants of the progress counters with relaxed atomics.
-/
namespace Tokengeex
open Tokengeex.Task
open Relation (ReflTransGen)

namespace Task

theorem State.run_append : ∀ (l : List Actor) (a : Actor) (s : State), s.run (l ++ [a]) = (s.run l).bind fun s' => s'.step a := by
  intro l
  induction l with
  | nil => intro a s; simp [State.run]
  | cons b l ih =>
    intro a s
    simp only [List.cons_append, State.run]
    cases s.step b with
    | none => rfl
    | some s1 => simpa using ih a s1

/-- Workers do not look at the monitor. -/
theorem State.workerStep_monitor (s : State) (m : Monitor) (i : Nat) :
    ({ s with monitor := m } : State).workerStep i = (s.workerStep i).map fun s' => { s' with monitor := m } := by
  simp only [State.workerStep]
  cases s.workers[i]? with
  | none => rfl
  | some w =>
    cases w with
    | working n b sizes => cases sizes <;> rfl
    | halfway b => rfl
    | done => rfl

/-- A worker does not touch the monitor, adds to the counters, and only moves before `finish`. -/
theorem State.workerStep_mono {s s' : State} {i : Nat} (h : s.workerStep i = some s') :
    s'.monitor = s.monitor ∧ s'.numSamples = s.numSamples ∧ s'.finished = s.finished ∧ s.processed ≤ s'.processed ∧ s.bytes ≤ s'.bytes := by
  simp only [State.workerStep] at h
  cases hw : s.workers[i]? with
  | none => rw [hw] at h; simp at h
  | some w =>
    rw [hw] at h
    cases w with
    | working n b sizes => cases sizes <;> simp only [Option.some.injEq] at h <;> subst h <;> simp
    | halfway b => simp only [Option.some.injEq] at h; subst h; simp
    | done => simp at h

theorem Weak.upd {t s : State} {m : Monitor} (h : t = { s with monitor := m }) (m' : Monitor) :
    ({ t with monitor := m' } : State) = { s with monitor := m' } := by
  subst h; rfl

/-- What the latest values are, is as with immediately visible stores. -/
theorem Weak.sched {chunks : List (List Nat)} {w : Weak} (h : ReflTransGen Weak.Step (Weak.init chunks) w) :
    ∃ l s, (State.init chunks).run l = some s ∧ w.now = { s with monitor := w.now.monitor } := by
  induction h with
  | refl => exact ⟨[], State.init chunks, rfl, rfl⟩
  | @tail v w _ h2 ih =>
    obtain ⟨l, s, h3, h4⟩ := ih
    cases h2 with
    | @worker i _ s1 h5 =>
      rw [h4, State.workerStep_monitor] at h5
      obtain ⟨s2, h6, h7⟩ := Option.map_eq_some_iff.1 h5
      refine ⟨l ++ [.worker i], s2, by rw [State.run_append, h3]; exact h6, ?_⟩
      subst h7
      rfl
    | main h5 =>
      refine ⟨l ++ [.main], { s with finished := true }, ?_, ?_⟩
      · rw [State.run_append, h3]
        have : s.workers.all (· == .done) = true := by
          rw [List.all_eq_true]
          intro x hx
          have := h5 x (by rw [h4]; exact hx)
          simp [this]
        show (if s.workers.all (· == .done) then some _ else none) = _
        rw [if_pos this]
      · show { v.now with finished := true } = _
        rw [h4]
    | wake h5 => exact ⟨l, s, h3, Weak.upd h4 _⟩
    | unfinished h5 => exact ⟨l, s, h3, Weak.upd h4 _⟩
    | finished h5 h6 => exact ⟨l, s, h3, Weak.upd h4 _⟩
    | load k n h5 h6 h7 => exact ⟨l, s, h3, Weak.upd h4 _⟩
    | loadBytes k n b h5 h6 h7 => exact ⟨l, s, h3, Weak.upd h4 _⟩
    | decided n b h5 =>
      refine ⟨l, s, h3, ?_⟩
      simp only [Weak.decide]
      by_cases h6 : n ≥ v.now.numSamples
      · rw [if_pos h6]; exact Weak.upd h4 _
      · rw [if_neg h6]; exact Weak.upd h4 _
    | report k b h5 h6 h7 => exact ⟨l, s, h3, Weak.upd h4 _⟩

theorem Weak.inv {chunks : List (List Nat)} {w : Weak} (h : ReflTransGen Weak.Step (Weak.init chunks) w) :
    Task.Inv chunks w.now := by
  obtain ⟨l, s, h1, h2⟩ := Weak.sched h
  have := (Inv.init chunks).run l h1
  rw [h2]
  exact ⟨this.num, this.samples, this.bytes, this.fin⟩

/-- A history of a counter: it ascends to its latest value, and the monitor has seen one of its values. -/
structure Hist (l : List Nat) (latest saw : Nat) : Prop where
  last : l.getLast? = some latest
  sorted : l.Pairwise (· ≤ ·)
  saw : saw < l.length

theorem Hist.le {l : List Nat} {latest saw x : Nat} (h : Hist l latest saw) (hx : x ∈ l) : x ≤ latest := by
  obtain ⟨l', rfl⟩ := List.getLast?_eq_some_iff.1 h.last
  rcases List.mem_append.1 hx with h1 | h1
  · exact (List.pairwise_append.1 h.sorted).2.2 x h1 latest (by simp)
  · simp at h1; omega

theorem Hist.push {l : List Nat} {latest saw x : Nat} (h : Hist l latest saw) (hx : latest ≤ x) : Hist (l ++ [x]) x saw where
  last := by simp
  sorted := List.pairwise_append.2 ⟨h.sorted, by simp, fun a ha b hb => by
    have := h.le ha
    simp at hb; omega⟩
  saw := by have := h.saw; simp; omega

theorem Hist.see {l : List Nat} {latest saw k x : Nat} (h : Hist l latest saw) (hk : l[k]? = some x) : Hist l latest k where
  last := h.last
  sorted := h.sorted
  saw := (List.getElem?_eq_some_iff.1 hk).1

theorem Hist.mono {l : List Nat} {latest saw i j x y : Nat} (h : Hist l latest saw) (hij : i ≤ j) (hi : l[i]? = some x)
    (hj : l[j]? = some y) : x ≤ y := by
  obtain ⟨h1, rfl⟩ := List.getElem?_eq_some_iff.1 hi
  obtain ⟨h2, rfl⟩ := List.getElem?_eq_some_iff.1 hj
  rcases Nat.lt_or_eq_of_le hij with h3 | h3
  · exact List.pairwise_iff_getElem.1 h.sorted i j h1 h2 h3
  · subst h3; exact Nat.le_refl _

/-- The invariant. -/
structure Weak.Inv (w : Weak) : Prop where
  hist : Hist w.samples w.now.processed w.sawSamples
  histBytes : Hist w.bytes w.now.bytes w.sawBytes
  sorted : w.messages.Pairwise (· ≤ ·)
  messages : ∀ m ∈ w.messages, 0 < m ∧ m < w.now.numSamples ∧ ∃ n, w.samples[w.sawSamples]? = some n ∧ m ≤ n
  seen : ∀ n, (w.now.monitor = .loadingBytes n ∨ ∃ b, w.now.monitor = .deciding n b) → w.samples[w.sawSamples]? = some n
  stop : w.now.monitor = .reporting ∨ (∃ b, w.now.monitor = .stopped b) →
    w.now.finished = true ∨ w.now.numSamples ≤ w.now.processed
  stopped : ∀ b, w.now.monitor = .stopped b → b ∈ w.bytes

theorem Weak.Inv.init (chunks : List (List Nat)) : Weak.Inv (Weak.init chunks) where
  hist := ⟨rfl, by simp [Weak.init], by simp [Weak.init]⟩
  histBytes := ⟨rfl, by simp [Weak.init], by simp [Weak.init]⟩
  sorted := by simp [Weak.init]
  messages := by simp [Weak.init]
  seen := by simp [Weak.init, State.init]
  stop := by simp [Weak.init, State.init]
  stopped := by simp [Weak.init, State.init]

theorem Weak.Inv.step {v w : Weak} (inv : Weak.Inv v) (h : Weak.Step v w) : Weak.Inv w := by
  obtain ⟨hist, histB, sorted, messages, seen, stop, stopped⟩ := inv
  cases h with
  | @worker i _ s h1 =>
    obtain ⟨e1, e2, e3, e4, e5⟩ := State.workerStep_mono h1
    have keep : ∀ n, v.samples[v.sawSamples]? = some n → (v.samples ++ [s.processed])[v.sawSamples]? = some n := by
      intro n hn
      rw [List.getElem?_append_left hist.saw]; exact hn
    refine ⟨hist.push e4, histB.push e5, sorted, ?_, ?_, ?_, ?_⟩
    · intro m hm
      obtain ⟨h2, h3, n, h4, h5⟩ := messages m hm
      exact ⟨h2, by show m < s.numSamples; omega, n, keep n h4, h5⟩
    · intro n hn
      exact keep n (seen n (by rwa [← e1]))
    · intro hs
      show s.finished = true ∨ s.numSamples ≤ s.processed
      have := stop (by rwa [← e1])
      rw [e2, e3]
      rcases this with h | h
      · exact .inl h
      · exact .inr (Nat.le_trans h e4)
    · intro b hb
      exact List.mem_append_left _ (stopped b (by rwa [← e1]))
  | main h1 => exact ⟨hist, histB, sorted, messages, seen, fun _ => .inl rfl, stopped⟩
  | wake h1 =>
    exact ⟨hist, histB, sorted, messages, fun n hn => by simp at hn, fun hs => by simp at hs, fun b hb => by simp at hb⟩
  | unfinished h1 =>
    exact ⟨hist, histB, sorted, messages, fun n hn => by simp at hn, fun hs => by simp at hs, fun b hb => by simp at hb⟩
  | finished h1 h2 =>
    exact ⟨hist, histB, sorted, messages, fun n hn => by simp at hn, fun _ => .inl h2, fun b hb => by simp at hb⟩
  | load k n h1 h2 h3 =>
    refine ⟨hist.see h3, histB, sorted, ?_, ?_, fun hs => by simp at hs, fun b hb => by simp at hb⟩
    · intro m hm
      obtain ⟨h4, h5, n', h6, h7⟩ := messages m hm
      exact ⟨h4, h5, n, h3, Nat.le_trans h7 (hist.mono h2 h6 h3)⟩
    · intro n' hn
      simp only [Monitor.loadingBytes.injEq, reduceCtorEq, exists_false, or_false] at hn
      subst hn
      exact h3
  | loadBytes k n b h1 h2 h3 =>
    refine ⟨hist, histB.see h3, sorted, messages, ?_, fun hs => by simp at hs, fun b hb => by simp at hb⟩
    intro n' hn
    simp only [reduceCtorEq, Monitor.deciding.injEq, exists_and_left, exists_eq', and_true, false_or] at hn
    subst hn
    exact seen n (.inl h1)
  | decided n b h1 =>
    have hs := seen n (.inr ⟨b, h1⟩)
    simp only [Weak.decide]
    by_cases h2 : n ≥ v.now.numSamples
    · rw [if_pos h2]
      refine ⟨hist, histB, sorted, messages, fun n hn => by simp at hn, fun _ => .inr ?_, fun b hb => by simp at hb⟩
      exact Nat.le_trans h2 (hist.le (List.mem_of_getElem? hs))
    · rw [if_neg h2]
      by_cases h3 : n = 0
      · rw [if_pos h3]
        exact ⟨hist, histB, sorted, messages, fun n hn => by simp at hn, fun hs => by simp at hs, fun b hb => by simp at hb⟩
      · rw [if_neg h3]
        refine ⟨hist, histB, ?_, ?_, fun n hn => by simp at hn, fun hs => by simp at hs, fun b hb => by simp at hb⟩
        · refine List.pairwise_append.2 ⟨sorted, by simp, fun a ha c hc => ?_⟩
          simp at hc
          obtain ⟨_, _, n', h6, h7⟩ := messages a ha
          rw [hs] at h6
          simp at h6; omega
        · intro m hm
          rcases List.mem_append.1 hm with h4 | h4
          · exact messages m h4
          · simp at h4
            exact ⟨by omega, by show m < v.now.numSamples; omega, n, hs, by omega⟩
  | report k b h1 h2 h3 =>
    refine ⟨hist, histB.see h3, sorted, messages, fun n hn => by simp at hn, fun _ => stop (.inl h1), ?_⟩
    intro b' hb
    simp only [Monitor.stopped.injEq] at hb
    subst hb
    exact List.mem_of_getElem? h3

theorem Weak.Inv.all {chunks : List (List Nat)} {w : Weak} (h : ReflTransGen Weak.Step (Weak.init chunks) w) : Weak.Inv w := by
  induction h with
  | refl => exact .init chunks
  | tail _ h2 ih => exact ih.step h2

/-- The model with immediately visible stores is one of the behaviours of the relaxed one. -/
theorem Weak.sim {v : Weak} {a : Actor} {s : State} (inv : Weak.Inv v) (h : v.now.step a = some s) :
    ∃ w, Weak.Step v w ∧ w.now = s := by
  have hk : v.samples[v.samples.length - 1]? = some v.now.processed := by rw [← inv.hist.last, List.getLast?_eq_getElem?]
  have hb : v.bytes[v.bytes.length - 1]? = some v.now.bytes := by rw [← inv.histBytes.last, List.getLast?_eq_getElem?]
  have h1 := inv.hist.saw
  have h2 := inv.histBytes.saw
  cases a with
  | worker i => exact ⟨_, .worker i h, rfl⟩
  | main =>
    simp only [State.step] at h
    by_cases hd : v.now.workers.all (· == .done) = true
    · rw [if_pos hd] at h
      simp only [Option.some.injEq] at h
      subst h
      exact ⟨_, .main (fun x hx => by simpa using List.all_eq_true.1 hd x hx), rfl⟩
    · rw [if_neg hd] at h; simp at h
  | monitor =>
    simp only [State.step, State.monitorStep] at h
    cases hm : v.now.monitor with
    | stopped b => rw [hm] at h; simp at h
    | sleeping => rw [hm] at h; simp only [Option.some.injEq] at h; subst h; exact ⟨_, .wake hm, rfl⟩
    | checking =>
      rw [hm] at h; simp only [Option.some.injEq] at h; subst h
      by_cases hf : v.now.finished = true
      · exact ⟨_, .finished hm hf, by simp [hf]⟩
      · exact ⟨_, .unfinished hm, by simp [hf]⟩
    | loading =>
      rw [hm] at h; simp only [Option.some.injEq] at h; subst h
      exact ⟨_, .load _ _ hm (by omega) hk, rfl⟩
    | loadingBytes n =>
      rw [hm] at h; simp only [Option.some.injEq] at h; subst h
      exact ⟨_, .loadBytes _ _ _ hm (by omega) hb, rfl⟩
    | deciding n b =>
      rw [hm] at h; simp only [Option.some.injEq] at h; subst h
      refine ⟨_, .decided n b hm, ?_⟩
      simp only [Weak.decide]
      by_cases hn : n ≥ v.now.numSamples
      · rw [if_pos hn, if_pos hn]
      · rw [if_neg hn, if_neg hn]
    | reporting =>
      rw [hm] at h; simp only [Option.some.injEq] at h; subst h
      exact ⟨_, .report _ _ hm (by omega) hb, rfl⟩

theorem Weak.simRun : ∀ (l : List Actor) {v : Weak} {s : State}, Weak.Inv v → v.now.run l = some s →
    ∃ w, ReflTransGen Weak.Step v w ∧ w.now = s := by
  intro l
  induction l with
  | nil => intro v s _ h; simp only [State.run, Option.some.injEq] at h; exact ⟨v, .refl, h⟩
  | cons a l ih =>
    intro v s inv h
    simp only [State.run] at h
    cases hs : v.now.step a with
    | none => rw [hs] at h; simp at h
    | some s1 =>
      rw [hs] at h
      obtain ⟨u, h1, h2⟩ := Weak.sim inv hs
      obtain ⟨w, h3, h4⟩ := ih (inv.step h1) (by rw [h2]; exact h)
      exact ⟨w, .head h1 h3, h4⟩

end Task
end Tokengeex

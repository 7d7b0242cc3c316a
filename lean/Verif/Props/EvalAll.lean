import Verif.Model.EvalAll
import Mathlib.Data.List.Nodup
/-
C117: scripts/evaluate.sh, run to its end, stopped, and run again.
-/
namespace Tokengeex
open Scripts

/-- The state of a run that started with the results `before`. -/
structure Scripts.ShellInv (result : Str → Option (List UInt8)) (names : List Str) (before : Cli.Files) (s : Shell) : Prop where
  nodup : (s.todo ++ s.jobs.map Prod.fst).Nodup
  sub : ∀ x ∈ s.todo ++ s.jobs.map Prod.fst, x ∈ names
  kept : ∀ x c, before x = some c → s.out x = some c ∧ x ∉ s.jobs.map Prod.fst
  waiting : ∀ x ∈ s.todo, s.out x = before x
  working : ∀ x, (x, Job.working) ∈ s.jobs → s.out x = none
  writing : ∀ x l, (x, Job.writing l) ∈ s.jobs → ∃ d, s.out x = some d ∧ result x = some (d ++ l)
  past : ∀ x ∈ names, x ∉ s.todo → x ∉ s.jobs.map Prod.fst → before x = none → s.out x = result x
  other : ∀ x, x ∉ names → s.out x = before x

theorem files_write_self (out : Cli.Files) (x : Str) (c : List UInt8) : (out.write x c) x = some c := by
  simp [Cli.Files.write]

theorem files_write_ne (out : Cli.Files) {x y : Str} (c : List UInt8) (h : y ≠ x) : (out.write x c) y = out y := by
  simp [Cli.Files.write, h]

variable {result : Str → Option (List UInt8)} {names : List Str} {before : Cli.Files}

theorem shellInv_start (hn : names.Nodup) (out : Cli.Files) : ShellInv result names out ⟨names, [], out⟩ where
  nodup := by simpa using hn
  sub := by simp
  kept := by intro x c h; exact ⟨h, by simp⟩
  waiting := fun _ _ => rfl
  working := by simp
  writing := by simp
  past := by intro x hx h; exact absurd hx h
  other := fun _ _ => rfl

/-- A job that is replaced by another state of the same job that has written to the file. -/
theorem shellInv_replace {todo : List Str} {a b : List (Str × Job)} {out : Cli.Files} {name : Str} {j j' : Job} {d l : List UInt8}
    (h : ShellInv result names before ⟨todo, a ++ (name, j) :: b, out⟩) (hj : j' = .writing l) (hr : result name = some (d ++ l)) :
    ShellInv result names before ⟨todo, a ++ (name, j') :: b, out.write name d⟩ := by
  subst hj
  have hmap : (a ++ (name, Job.writing l) :: b).map Prod.fst = (a ++ (name, j) :: b).map Prod.fst := by simp
  have hnod := h.nodup
  have hin : name ∈ (a ++ (name, j) :: b).map Prod.fst := by simp
  have hout : ∀ x, x ∉ (a ++ (name, j) :: b).map Prod.fst → (out.write name d) x = out x := by
    intro x hx
    exact files_write_ne _ _ (by rintro rfl; exact hx hin)
  have hab : ∀ x j0, (x, j0) ∈ a ++ b → x ≠ name := by
    rintro x j0 hx rfl
    simp only [List.map_append, List.map_cons] at hnod
    have h1 := (List.nodup_append.1 hnod).2.1
    have h2 := List.nodup_append.1 h1
    rcases List.mem_append.1 hx with hx | hx
    · exact h2.2.2 x (List.mem_map_of_mem (f := Prod.fst) hx) x (by simp) rfl
    · exact (List.nodup_cons.1 h2.2.1).1 (List.mem_map_of_mem (f := Prod.fst) hx)
  refine ⟨by rw [hmap]; exact h.nodup, by rw [hmap]; exact h.sub, ?_, ?_, ?_, ?_, ?_, ?_⟩
  · intro x c hx
    obtain ⟨h1, h2⟩ := h.kept x c hx
    exact ⟨(hout x h2).trans h1, by rw [hmap]; exact h2⟩
  · intro x hx
    refine (hout x ?_).trans (h.waiting x hx)
    intro hm
    exact (List.nodup_append.1 hnod).2.2 x hx x hm rfl
  · intro x hx
    have hx' : (x, Job.working) ∈ a ++ b := by
      simp only [List.mem_append, List.mem_cons, Prod.mk.injEq, reduceCtorEq, and_false, false_or] at hx ⊢
      exact hx
    show (out.write name d) x = none
    rw [files_write_ne _ _ (hab x _ hx')]
    refine h.working x ?_
    rcases List.mem_append.1 hx' with h1 | h1 <;> simp [h1]
  · intro x l' hx
    have hx' : (x = name ∧ l' = l) ∨ (x, Job.writing l') ∈ a ++ b := by
      simp only [List.mem_append, List.mem_cons, Prod.mk.injEq, Job.writing.injEq] at hx ⊢
      tauto
    rcases hx' with ⟨rfl, rfl⟩ | hx'
    · exact ⟨d, files_write_self _ _ _, hr⟩
    · show ∃ d', (out.write name d) x = some d' ∧ _
      rw [files_write_ne _ _ (hab x _ hx')]
      refine h.writing x l' ?_
      rcases List.mem_append.1 hx' with h1 | h1 <;> simp [h1]
  · intro x hx h1 h2 h3
    rw [hmap] at h2
    exact (hout x h2).trans (h.past x hx h1 h2 h3)
  · intro x hx
    refine (hout x ?_).trans (h.other x hx)
    intro hm
    exact hx (h.sub x (by simp only [List.mem_append]; exact .inr hm))

/-- A job that ends with the file as it should be. -/
theorem shellInv_remove {todo : List Str} {a b : List (Str × Job)} {out : Cli.Files} {name : Str} {j : Job}
    (h : ShellInv result names before ⟨todo, a ++ (name, j) :: b, out⟩) (hr : out name = result name) :
    ShellInv result names before ⟨todo, a ++ b, out⟩ := by
  have hsub : (todo ++ (a ++ b).map Prod.fst).Sublist (todo ++ (a ++ (name, j) :: b).map Prod.fst) := by
    refine List.Sublist.append (List.Sublist.refl _) (List.Sublist.map _ ?_)
    exact List.Sublist.append (List.Sublist.refl _) (List.sublist_cons_self _ _)
  have hmem : ∀ y, y ∈ a ++ b → y ∈ a ++ (name, j) :: b := by
    intro y hy
    rcases List.mem_append.1 hy with h1 | h1 <;> simp [h1]
  refine ⟨h.nodup.sublist hsub, fun x hx => h.sub x (hsub.subset hx), ?_, h.waiting, fun x hx => h.working x (hmem _ hx),
    fun x l hx => h.writing x l (hmem _ hx), ?_, h.other⟩
  · intro x c hx
    obtain ⟨h1, h2⟩ := h.kept x c hx
    refine ⟨h1, ?_⟩
    intro hm
    obtain ⟨y, hy, rfl⟩ := List.mem_map.1 hm
    exact h2 (List.mem_map_of_mem (f := Prod.fst) (hmem y hy))
  · intro x hx h1 h2 h3
    by_cases e : x = name
    · subst e; exact hr
    · refine h.past x hx h1 ?_ h3
      simp only [List.map_append, List.map_cons, List.mem_append, List.mem_cons] at h2 ⊢
      rintro (h4 | h4 | h4)
      · exact h2 (.inl h4)
      · exact e h4
      · exact h2 (.inr h4)

theorem shellInv_step {s t : Shell} (h : ShellInv result names before s) (st : Shell.Step result s t) :
    ShellInv result names before t := by
  cases st with
  | skip hb =>
    rename_i name todo jobs out bytes
    have hnod := h.nodup
    simp only [List.cons_append, List.nodup_cons] at hnod
    refine ⟨hnod.2, fun x hx => h.sub x (by simp only [List.cons_append, List.mem_cons]; exact .inr hx), h.kept,
      fun x hx => h.waiting x (by simp [hx]), h.working, h.writing, ?_, h.other⟩
    intro x hx h1 h2 h3
    by_cases e : x = name
    · subst e
      have := h.waiting x (by simp)
      simp only at this
      rw [h3, hb] at this
      cases this
    · exact h.past x hx (by simp [e, h1]) h2 h3
  | launch hb =>
    rename_i name todo jobs out
    have hnod := h.nodup
    simp only [List.cons_append, List.nodup_cons] at hnod
    refine ⟨?_, ?_, ?_, fun x hx => h.waiting x (by simp [hx]), ?_, ?_, ?_, h.other⟩
    · simp only [List.map_cons]
      refine List.nodup_append.2 ⟨(List.nodup_append.1 hnod.2).1, ?_, ?_⟩
      · exact List.nodup_cons.2 ⟨fun hm => hnod.1 (by simp only [List.mem_append]; exact .inr hm), (List.nodup_append.1 hnod.2).2.1⟩
      · intro x hx y hy
        simp only [List.mem_cons] at hy
        rcases hy with rfl | hy
        · rintro rfl
          exact hnod.1 (by simp only [List.mem_append]; exact .inl hx)
        · exact (List.nodup_append.1 hnod.2).2.2 x hx y hy
    · intro x hx
      refine h.sub x ?_
      simp only [List.map_cons, List.mem_append, List.mem_cons, List.cons_append] at hx ⊢
      tauto
    · intro x c hx
      obtain ⟨h1, h2⟩ := h.kept x c hx
      refine ⟨h1, ?_⟩
      simp only [List.map_cons, List.mem_cons]
      rintro (rfl | hm)
      · simp only at h1; rw [hb] at h1; cases h1
      · exact h2 hm
    · intro x hx
      simp only [List.mem_cons, Prod.mk.injEq, and_true] at hx
      rcases hx with rfl | hx
      · exact hb
      · exact h.working x hx
    · intro x l hx
      simp only [List.mem_cons, Prod.mk.injEq, reduceCtorEq, and_false, false_or] at hx
      exact h.writing x l hx
    · intro x hx h1 h2 h3
      simp only [List.map_cons, List.mem_cons, not_or] at h2
      exact h.past x hx (by simp only [List.mem_cons, not_or]; exact ⟨h2.1, h1⟩) h2.2 h3
  | fail hr =>
    rename_i name todo a b out
    exact shellInv_remove h ((h.working name (by simp)).trans hr.symm)
  | opened hr => exact shellInv_replace h rfl hr
  | written ho _ =>
    rename_i name todo a b out old new left _
    obtain ⟨d, h1, h2⟩ := h.writing name (new ++ left) (by simp)
    simp only at h1
    rw [ho] at h1
    cases h1
    exact shellInv_replace h rfl (by rw [h2, List.append_assoc])
  | finish =>
    rename_i name todo a b out
    obtain ⟨d, h1, h2⟩ := h.writing name [] (by simp)
    exact shellInv_remove h (by rw [h2, List.append_nil]; exact h1)

theorem shellInv_steps {s t : Shell} (h : ShellInv result names before s) (st : Shell.Steps result s t) :
    ShellInv result names before t := by
  induction st with
  | refl => exact h
  | tail _ hs ih => exact shellInv_step ih hs

theorem globbed_nodup (hn : names.Nodup) : (globbed names).Nodup := by
  unfold globbed
  split
  · simp
  · exact hn

theorem shellInv_reached (hn : names.Nodup) {s : Shell} (h : Shell.Steps result (Shell.start names before) s) :
    ShellInv result (globbed names) before s :=
  shellInv_steps (shellInv_start (globbed_nodup hn) before) h

/-- The vocabularies that the script looks at: those in the directory; if there are none, bash leaves the pattern `*.json`. -/
def Spec.LookedAt (names : List Str) (x : Str) : Prop := x ∈ names ∨ (names = [] ∧ x = "*.json".toList)

theorem mem_globbed (names : List Str) (x : Str) : x ∈ globbed names ↔ Spec.LookedAt names x := by
  unfold globbed Spec.LookedAt
  by_cases h : names = []
  · subst h; simp
  · rw [if_neg h]; simp [h]

open Spec

/-- **C117**, a run that ends.  Results that exist are kept, results of the other vocabularies are those of evaluate.py (none if it
fails), and nothing else changes, in whatever order the jobs run. -/
theorem C117_run (hn : names.Nodup) {after : Cli.Files} (h : EvaluateAll result names before after) (x : Str) :
    (before x = none → LookedAt names x → after x = result x) ∧ (before x ≠ none ∨ ¬ LookedAt names x → after x = before x) := by
  obtain ⟨s, h1, ⟨ht, hj⟩, rfl⟩ := h
  rw [← mem_globbed]
  have hi := shellInv_reached hn h1
  refine ⟨fun hb hx => hi.past x hx (by rw [ht]; simp) (by rw [hj]; simp) hb, ?_⟩
  rintro (hb | hx)
  · obtain ⟨c, hc⟩ := Option.ne_none_iff_exists'.1 hb
    rw [hc]
    exact (hi.kept x c hc).1
  · exact hi.other x hx

/-- **C117**, a run that is stopped at any moment.  Results that existed are still there; of every other vocabulary there is no
result, or the beginning of its result, which may be all of it. -/
theorem C117_stopped (hn : names.Nodup) {after : Cli.Files} (h : EvaluateStopped result names before after) (x : Str) :
    (∀ c, before x = some c → after x = some c) ∧ (¬ LookedAt names x → after x = before x) ∧
    (before x = none → after x = none ∨ ∃ d c, after x = some d ∧ result x = some c ∧ d <+: c) := by
  obtain ⟨s, h1, rfl⟩ := h
  have hi := shellInv_reached hn h1
  refine ⟨fun c hc => (hi.kept x c hc).1, fun hx => hi.other x (fun hm => hx ((mem_globbed _ _).1 hm)), ?_⟩
  intro hb
  by_cases hx : x ∈ globbed names
  · by_cases ht : x ∈ s.todo
    · exact .inl ((hi.waiting x ht).trans hb)
    · by_cases hj : x ∈ s.jobs.map Prod.fst
      · obtain ⟨⟨y, j⟩, hy, rfl⟩ := List.mem_map.1 hj
        cases j with
        | working => exact .inl (hi.working y hy)
        | writing l =>
          obtain ⟨d, h2, h3⟩ := hi.writing y l hy
          exact .inr ⟨d, _, h2, h3, List.prefix_append _ _⟩
      · have := hi.past x hx ht hj hb
        cases hr : result x with
        | none => exact .inl (this.trans hr)
        | some c => exact .inr ⟨c, c, this.trans hr, rfl, List.prefix_refl _⟩
  · exact .inl ((hi.other x hx).trans hb)

/-! ### The script ends -/

/-- The steps that are left. -/
def Scripts.Job.work (result : Str → Option (List UInt8)) : Str × Job → Nat
  | (name, .working) => 2 + ((result name).getD []).length
  | (_, .writing left) => 1 + left.length

def Scripts.Shell.work (result : Str → Option (List UInt8)) (s : Shell) : Nat :=
  (s.todo.map fun name => 3 + ((result name).getD []).length).sum + (s.jobs.map (Job.work result)).sum

theorem shell_work {s t : Shell} (st : Shell.Step result s t) : t.work result < s.work result := by
  cases st with
  | skip _ => simp only [Shell.work, List.map_cons, List.sum_cons]; omega
  | launch _ => simp only [Shell.work, List.map_cons, List.sum_cons, Job.work]; omega
  | fail _ =>
    simp only [Shell.work, List.map_append, List.map_cons, List.sum_append, List.sum_cons, Job.work]; omega
  | opened hr =>
    simp only [Shell.work, List.map_append, List.map_cons, List.sum_append, List.sum_cons, Job.work, hr, Option.getD_some]; omega
  | written _ hne =>
    have := List.length_pos_iff.2 hne
    simp only [Shell.work, List.map_append, List.map_cons, List.sum_append, List.sum_cons, Job.work, List.length_append]; omega
  | finish =>
    simp only [Shell.work, List.map_append, List.map_cons, List.sum_append, List.sum_cons, Job.work]; omega

theorem shell_progress {s : Shell} (h : ShellInv result names before s) (hd : ¬ s.Done) : ∃ t, Shell.Step result s t := by
  obtain ⟨todo, jobs, out⟩ := s
  cases todo with
  | cons name todo =>
    cases ho : out name with
    | none => exact ⟨_, .launch ho⟩
    | some c => exact ⟨_, .skip ho⟩
  | nil =>
    cases jobs with
    | nil => exact absurd ⟨rfl, rfl⟩ hd
    | cons j jobs =>
      obtain ⟨name, j⟩ := j
      cases j with
      | working =>
        cases hr : result name with
        | none => exact ⟨_, .fail (a := []) hr⟩
        | some c => exact ⟨_, .opened (a := []) hr⟩
      | writing l =>
        cases l with
        | nil => exact ⟨_, .finish (a := [])⟩
        | cons b l =>
          obtain ⟨d, h1, _⟩ := h.writing name (b :: l) (by simp)
          exact ⟨_, .written (a := []) (new := [b]) h1 (by simp)⟩

theorem shell_finishes {s : Shell} (h : ShellInv result names before s) : ∃ t, Shell.Steps result s t ∧ t.Done := by
  generalize hn : s.work result = n
  induction n using Nat.strongRecOn generalizing s with
  | ind n ih =>
    by_cases hd : s.Done
    · exact ⟨s, .refl s, hd⟩
    · obtain ⟨t, ht⟩ := shell_progress h hd
      obtain ⟨u, hu, hd'⟩ := ih _ (by rw [← hn]; exact shell_work ht) (shellInv_step h ht) rfl
      refine ⟨u, ?_, hd'⟩
      clear hd' ih
      induction hu with
      | refl => exact .tail (.refl s) ht
      | tail _ hs ih => exact .tail ih hs

/-- **C117**, the end.  No run goes on for ever, and one that has not ended can go on to its end. -/
theorem C117_ends (hn : names.Nodup) :
    (¬ ∃ f : Nat → Shell, f 0 = Shell.start names before ∧ ∀ n, Shell.Step result (f n) (f (n + 1))) ∧
    ∀ s, Shell.Steps result (Shell.start names before) s → ∃ t, Shell.Steps result s t ∧ t.Done := by
  constructor
  · rintro ⟨f, -, hf⟩
    have : ∀ n, (f n).work result + n ≤ (f 0).work result := by
      intro n
      induction n with
      | zero => omega
      | succ n ih => have := shell_work (hf n); omega
    have := this ((f 0).work result + 1)
    omega
  · intro s hs
    exact shell_finishes (shellInv_reached hn hs)

/-! ### Running it again -/

/-- Directories after any number of further runs that end. -/
inductive Scripts.Rerun (result : Str → Option (List UInt8)) (names : List Str) : Cli.Files → Cli.Files → Prop
  | none (out : Cli.Files) : Rerun result names out out
  | again {a b c : Cli.Files} : Rerun result names a b → EvaluateAll result names b c → Rerun result names a c

/-- **C117** in full is false.  Whatever the evaluation of a vocabulary without a result would write: a run can be stopped so that an
empty file is there, and then no later run ever gives another result. -/
theorem C117_again_false (hn : names.Nodup) {name : Str} (hname : name ∈ names) {bytes : List UInt8}
    (hr : result name = some bytes) (hb : before name = none) :
    ∃ stopped, EvaluateStopped result names before stopped ∧ stopped name = some [] ∧
      ∀ later, Rerun result names stopped later → later name = some [] := by
  have hg : globbed names = names := by
    unfold globbed
    rw [if_neg (List.ne_nil_of_mem hname)]
  -- the loop gets to the vocabulary, and its job opens the file
  have key : ∀ (l : List Str) (jobs : List (Str × Job)), name ∈ l → ∃ rest jobs',
      ∀ s, Shell.Steps result s ⟨l, jobs, before⟩ → Shell.Steps result s ⟨rest, (name, .working) :: jobs', before⟩ := by
    intro l
    induction l with
    | nil => intro jobs h; cases h
    | cons x l ih =>
      intro jobs h
      by_cases e : x = name
      · subst e
        exact ⟨l, jobs, fun s hs => .tail hs (.launch hb)⟩
      · have hm : name ∈ l := by
          rcases List.mem_cons.1 h with h | h
          · exact absurd h.symm e
          · exact h
        cases hx : before x with
        | none =>
          obtain ⟨rest, jobs', hk⟩ := ih ((x, .working) :: jobs) hm
          exact ⟨rest, jobs', fun s hs => hk s (.tail hs (.launch hx))⟩
        | some c =>
          obtain ⟨rest, jobs', hk⟩ := ih jobs hm
          exact ⟨rest, jobs', fun s hs => hk s (.tail hs (.skip hx))⟩
  obtain ⟨rest, jobs', hk⟩ := key names [] hname
  refine ⟨before.write name [], ⟨_, .tail (hk (Shell.start names before) ?_) (.opened (a := []) hr), rfl⟩, files_write_self _ _ _, ?_⟩
  · unfold Shell.start
    rw [hg]
    exact .refl _
  · intro later hl
    induction hl with
    | none => exact files_write_self _ _ _
    | again _ hrun ih =>
      rw [(C117_run hn hrun name).2 (.inl (by rw [ih]; simp)), ih]

/-- **C117** (partial) If a run was stopped while no file was half written, then running the script again to its end gives what one
run would have given.  Missing: runs that are stopped while a file is written (`C117_again_false`). -/
theorem C117_again_partial (hn : names.Nodup) {stopped after once : Cli.Files} (h1 : EvaluateStopped result names before stopped)
    (hwhole : ∀ x d, before x = none → stopped x = some d → result x = some d) (h2 : EvaluateAll result names stopped after)
    (h3 : EvaluateAll result names before once) : after = once := by
  funext x
  obtain ⟨a1, a2⟩ := C117_run hn h2 x
  obtain ⟨b1, b2⟩ := C117_run hn h3 x
  obtain ⟨k1, k2, k3⟩ := C117_stopped hn h1 x
  cases hb : before x with
  | some c => rw [a2 (.inl (by rw [k1 c hb]; simp)), b2 (.inl (by rw [hb]; simp)), k1 c hb, hb]
  | none =>
    by_cases hx : LookedAt names x
    · rw [b1 hb hx]
      cases hs : stopped x with
      | none => exact a1 hs hx
      | some d => rw [a2 (.inl (by rw [hs]; simp)), hs, hwhole x d hb hs]
    · rw [a2 (.inr hx), b2 (.inr hx), k2 hx]

/-- Non-vacuity: two vocabularies, one of which has a result, and the run that evaluates the other. -/
example : EvaluateAll (fun x => if x = "b".toList then some [1, 2] else none) ["a".toList, "b".toList]
    (fun x => if x = "a".toList then some [7] else none)
    (fun x => if x = "a".toList then some [7] else if x = "b".toList then some [1, 2] else none) := by
  have hi := shellInv_start (result := fun x => if x = "b".toList then some [1, 2] else none) (names := ["a".toList, "b".toList])
    (by decide) (fun x => if x = "a".toList then some [7] else none)
  obtain ⟨t, h1, h2⟩ := shell_finishes hi
  have : EvaluateAll (fun x => if x = "b".toList then some [1, 2] else none) ["a".toList, "b".toList]
    (fun x => if x = "a".toList then some [7] else none) t.out := ⟨t, h1, h2, rfl⟩
  convert this using 1
  funext x
  obtain ⟨h3, h4⟩ := C117_run (by decide) this x
  by_cases ha : x = "a".toList
  · subst ha; exact (h4 (.inl (by simp))).symm
  · by_cases hb : x = "b".toList
    · subst hb; exact (h3 (by decide) (.inl (by decide))).symm
    · rw [h4 (.inr ?_)]
      · simp only [if_neg ha, if_neg hb]
      · rintro (h | ⟨h, _⟩)
        · simp only [List.mem_cons, List.not_mem_nil, or_false] at h
          exact h.elim ha hb
        · cases h

end Tokengeex

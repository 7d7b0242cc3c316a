import Verif.Model.Cli
/-
scripts/evaluate.sh: evaluates all vocabularies of a directory at the same time, and leaves out those that have a result.

A vocabulary is given by its file name, which is also the name of its result.  `result name` is what scripts/evaluate.py writes for
it (`json.dump`, line 185-186), `none` if it fails before it opens the file.
-/
namespace Tokengeex.Scripts

/-- What a background job is doing: it has not opened its output, or has these bytes left to write. -/
inductive Job where
  | working
  | writing (left : List UInt8)

/-- The script: names that the loop still has to look at, jobs that run, and the directory of results. -/
structure Shell where
  todo : List Str
  jobs : List (Str × Job)
  out : Cli.Files

/-- `for json_file in "$vocabdir"/*.json`, scripts/evaluate.sh:6-7: without a match bash leaves the pattern as it is. -/
def globbed (names : List Str) : List Str := if names = [] then ["*.json".toList] else names

/-- The start of the script, scripts/evaluate.sh:3-6. -/
def Shell.start (names : List Str) (out : Cli.Files) : Shell := ⟨globbed names, [], out⟩

/-- One step of the script or of one of its jobs. -/
inductive Shell.Step (result : Str → Option (List UInt8)) : Shell → Shell → Prop
  /-- scripts/evaluate.sh:10-13: there is a result. -/
  | skip {name : Str} {todo : List Str} {jobs : List (Str × Job)} {out : Cli.Files} {bytes : List UInt8} :
    out name = some bytes → Step result ⟨name :: todo, jobs, out⟩ ⟨todo, jobs, out⟩
  /-- scripts/evaluate.sh:15-16: there is none. -/
  | launch {name : Str} {todo : List Str} {jobs : List (Str × Job)} {out : Cli.Files} : out name = none →
    Step result ⟨name :: todo, jobs, out⟩ ⟨todo, (name, .working) :: jobs, out⟩
  /-- scripts/evaluate.py ends with an exception before line 185. -/
  | fail {name : Str} {todo : List Str} {a b : List (Str × Job)} {out : Cli.Files} : result name = none →
    Step result ⟨todo, a ++ (name, .working) :: b, out⟩ ⟨todo, a ++ b, out⟩
  /-- scripts/evaluate.py:185: `open(args.o, "w")` empties the file. -/
  | opened {name : Str} {todo : List Str} {a b : List (Str × Job)} {out : Cli.Files} {bytes : List UInt8} :
    result name = some bytes →
    Step result ⟨todo, a ++ (name, .working) :: b, out⟩ ⟨todo, a ++ (name, .writing bytes) :: b, out.write name []⟩
  /-- scripts/evaluate.py:186: some bytes are written. -/
  | written {name : Str} {todo : List Str} {a b : List (Str × Job)} {out : Cli.Files} {old new left : List UInt8} :
    out name = some old → new ≠ [] →
    Step result ⟨todo, a ++ (name, .writing (new ++ left)) :: b, out⟩
      ⟨todo, a ++ (name, .writing left) :: b, out.write name (old ++ new)⟩
  /-- The job ends. -/
  | finish {name : Str} {todo : List Str} {a b : List (Str × Job)} {out : Cli.Files} :
    Step result ⟨todo, a ++ (name, .writing []) :: b, out⟩ ⟨todo, a ++ b, out⟩

/-- Any number of steps. -/
inductive Shell.Steps (result : Str → Option (List UInt8)) : Shell → Shell → Prop
  | refl (s : Shell) : Steps result s s
  | tail {s t u : Shell} : Steps result s t → Step result t u → Steps result s u

/-- `wait` returns, scripts/evaluate.sh:19. -/
def Shell.Done (s : Shell) : Prop := s.todo = [] ∧ s.jobs = []

/-- The directory after a run that ended. -/
def EvaluateAll (result : Str → Option (List UInt8)) (names : List Str) (before after : Cli.Files) : Prop :=
  ∃ s, Shell.Steps result (Shell.start names before) s ∧ s.Done ∧ s.out = after

/-- The directory after a run that was stopped, together with its jobs, at some moment. -/
def EvaluateStopped (result : Str → Option (List UInt8)) (names : List Str) (before after : Cli.Files) : Prop :=
  ∃ s, Shell.Steps result (Shell.start names before) s ∧ s.out = after

end Tokengeex.Scripts

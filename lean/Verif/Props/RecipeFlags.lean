import Verif.Model.Recipes
import Verif.Props.Flags
/-
C98: what the command lines of docs/RECIPES.md ask for.
-/
namespace Tokengeex
open Spec Cli Recipes
variable {F : Type} [TrainOps F]

/-- The values of `--train` in a recipe. -/
def trainItems (languages : List String) (proportion : String) : Items :=
  languages.map fun lang => ("--train".toList, (lang ++ ":./hub/data/train/" ++ lang ++ ".bin" ++ proportion).toList)

theorem args_train (languages : List String) (proportion : String) :
    args (train languages proportion) = written (trainItems languages proportion) := by
  induction languages with
  | nil => rfl
  | cons lang languages ih =>
    have h1 : args (train (lang :: languages) proportion) =
        "--train".toList :: (lang ++ ":./hub/data/train/" ++ lang ++ ".bin" ++ proportion).toList :: args (train languages proportion) := rfl
    rw [h1, ih]
    rfl

theorem given_append (a b : Items) (names : List String) : given (a ++ b) names = given a names ++ given b names :=
  List.filterMap_append

theorem given_other (languages : List String) (proportion : String) (names : List String)
    (hn : "--train".toList ∉ names.map String.toList) : given (trainItems languages proportion) names = [] := by
  unfold given
  rw [List.filterMap_eq_nil_iff]
  intro q hq
  obtain ⟨lang, _, rfl⟩ := List.mem_map.1 hq
  exact if_neg hn

theorem given_train (languages : List String) (proportion : String) : given (trainItems languages proportion) ["--train"] =
    (languages.map fun lang => lang ++ ":./hub/data/train/" ++ lang ++ ".bin" ++ proportion).map String.toList := by
  induction languages with
  | nil => rfl
  | cons lang languages ih =>
    have h1 : given (trainItems (lang :: languages) proportion) ["--train"] =
        (lang ++ ":./hub/data/train/" ++ lang ++ ".bin" ++ proportion).toList :: given (trainItems languages proportion) ["--train"] := rfl
    rw [h1, ih]
    rfl

theorem only_train (languages : List String) (proportion : String) (names : List String)
    (hn : "--train".toList ∈ names.map String.toList) : Only (trainItems languages proportion) names := by
  intro q hq
  obtain ⟨lang, _, rfl⟩ := List.mem_map.1 hq
  exact hn

theorem written_append (a b : Items) : written (a ++ b) = written a ++ written b := List.flatMap_append

theorem only_append {a b : Items} {names : List String} (ha : Only a names) (hb : Only b names) : Only (a ++ b) names := by
  intro q hq
  rcases List.mem_append.1 hq with h | h
  · exact ha q h
  · exact hb q h

/-- The other items of the recipe for the initial vocabulary. -/
def initItems : Items :=
  [("--output", "hub/vocab/v2/exact-500k-init.json"), ("--vocab-size", "500000"), ("--insert-probability", "0.01"),
    ("--max-token-length", "16"), ("--processor", "crlf"), ("--processor", "nfc"), ("--special", "<|eos|>"), ("--special", "<|pad|>"),
    ("--special", "<|lang|>"), ("--special", "<|filename|>"), ("--special", "<|suffix|>"), ("--special", "<|prefix|>"),
    ("--special", "<|middle|>"), ("--added", "hub/tokens/lang.json"), ("--added", "hub/tokens/whitespace.json"),
    ("--suggested", "hub/tokens/punct.json"), ("--allow", "data/exact.regex")].map fun q => (q.1.toList, q.2.toList)

/-- **C98** What the recipe for the initial vocabulary asks for. -/
theorem C98_generate_flags (float : Str → Option F) (p : F) (hp : float "0.01".toList = some p) :
    parseArgs float (args Recipes.init) = .ok (.run (.generate
      { output := "hub/vocab/v2/exact-500k-init.json".toList
        vocabSize := 500000
        train := (("infilling" :: languages).map fun lang => lang ++ ":./hub/data/train/" ++ lang ++ ".bin" ++ "").map String.toList
        processors := ["crlf".toList, "nfc".toList]
        special := ["<|eos|>", "<|pad|>", "<|lang|>", "<|filename|>", "<|suffix|>", "<|prefix|>", "<|middle|>"].map String.toList
        suggested := ["hub/tokens/punct.json".toList]
        added := ["hub/tokens/lang.json".toList, "hub/tokens/whitespace.json".toList]
        split := none
        allow := some "data/exact.regex".toList
        insertProbability := p
        maxTokenLength := 16 })) := by
  have hitems : args Recipes.init = "generate".toList :: written (initItems ++ trainItems ("infilling" :: languages) "") := by
    rw [written_append, ← args_train]
    unfold args Recipes.init
    rw [List.map_append, ← List.cons_append]
    congr 1
  have hg : ∀ names, "--train".toList ∉ names.map String.toList →
      given (initItems ++ trainItems ("infilling" :: languages) "") names = given initItems names := by
    intro names hn
    rw [given_append, given_other _ _ _ hn, List.append_nil]
  refine (C84_reads float _ _).2 ⟨"generate", _, .inl hitems, .generate _ _ ?_ ?_ ?_ ?_ ?_ ?_ ?_ ?_ ?_ ?_ ?_ ?_⟩
  · refine only_append ?_ (only_train _ _ _ (by decide +kernel))
    unfold Only
    decide +kernel
  · exact ⟨"500000".toList, by rw [hg _ (by decide +kernel)]; decide +kernel, (parseUsize_iff _ _).1 rfl⟩
  · exact ⟨"hub/vocab/v2/exact-500k-init.json".toList, by rw [hg _ (by decide +kernel)]; decide +kernel, rfl⟩
  · dsimp only; rw [hg _ (by decide +kernel)]; decide +kernel
  · dsimp only
    rw [given_append, given_train]
    have : given initItems ["--train"] = [] := by decide +kernel
    rw [this, List.nil_append]
  · dsimp only; rw [hg _ (by decide +kernel)]; decide +kernel
  · dsimp only; rw [hg _ (by decide +kernel)]; decide +kernel
  · dsimp only; rw [hg _ (by decide +kernel)]; decide +kernel
  · exact .inr ⟨_, rfl, "data/exact.regex".toList, by rw [hg _ (by decide +kernel)]; decide +kernel, rfl⟩
  · exact .inl ⟨by rw [hg _ (by decide +kernel)]; decide +kernel, rfl⟩
  · exact .inr ⟨"0.01".toList, by rw [hg _ (by decide +kernel)]; decide +kernel, hp⟩
  · exact .inr ⟨"16".toList, by rw [hg _ (by decide +kernel)]; decide +kernel, (parseUsize_iff _ _).1 rfl⟩

/-- **C98** What the recipes for pruning ask for. -/
theorem C98_prune_flags (float : Str → Option F) (output dropout : String) (d : F) (hd : float dropout.toList = some d) (shrink : F)
    (hs : float "0.8".toList = some shrink) :
    parseArgs float (args (Recipes.prune output dropout)) = .ok (.run (.prune
      { input := "hub/vocab/v2/exact-500k-init.json".toList
        output := output.toList
        vocabSize := 32000
        train := (languages.map fun lang => lang ++ ":./hub/data/train/" ++ lang ++ ".bin" ++ ":0.25").map String.toList
        dropout := d
        shrinkFactor := shrink
        emSubiters := 2 })) := by
  have hg : ∀ names, "--train".toList ∉ names.map String.toList → ∀ items,
      given (items ++ trainItems languages ":0.25") names = given items names := by
    intro names hn items
    rw [given_append, given_other _ _ _ hn, List.append_nil]
  refine (C84_reads float _ _).2 ⟨"prune", [("--input".toList, "hub/vocab/v2/exact-500k-init.json".toList),
      ("--output".toList, output.toList), ("--vocab-size".toList, "32000".toList), ("--dropout".toList, dropout.toList),
      ("--shrink-factor".toList, "0.8".toList), ("--em-subiters".toList, "2".toList)] ++ trainItems languages ":0.25",
      .inl ?_, .prune _ _ ?_ ?_ ?_ ?_ ?_ ?_ ?_ ?_⟩
  · rw [written_append, ← args_train]
    unfold args Recipes.prune
    rw [List.map_append, ← List.cons_append]
    congr 1
  · refine only_append ?_ (only_train _ _ _ (by decide +kernel))
    intro q hq
    simp only [List.mem_cons, List.not_mem_nil, or_false] at hq
    rcases hq with rfl | rfl | rfl | rfl | rfl | rfl <;> dsimp only <;> decide +kernel
  · exact ⟨_, by rw [hg _ (by decide +kernel)]; rfl, rfl⟩
  · exact ⟨_, by rw [hg _ (by decide +kernel)]; rfl, rfl⟩
  · exact ⟨"32000".toList, by rw [hg _ (by decide +kernel)]; rfl, (parseUsize_iff _ _).1 rfl⟩
  · dsimp only
    rw [given_append, given_train]
    have : given [("--input".toList, "hub/vocab/v2/exact-500k-init.json".toList),
      ("--output".toList, output.toList), ("--vocab-size".toList, "32000".toList), ("--dropout".toList, dropout.toList),
      ("--shrink-factor".toList, "0.8".toList), ("--em-subiters".toList, "2".toList)] ["--train"] = [] := rfl
    rw [this, List.nil_append]
  · exact .inr ⟨_, by rw [hg _ (by decide +kernel)]; rfl, hd⟩
  · exact .inr ⟨_, by rw [hg _ (by decide +kernel)]; rfl, hs⟩
  · exact .inr ⟨"2".toList, by rw [hg _ (by decide +kernel)]; rfl, (parseUsize_iff _ _).1 rfl⟩

/-- **C98** What the recipe for white space asks for. -/
theorem C98_mine_flags (float : Str → Option F) :
    parseArgs float (args Recipes.whitespace) = .ok (.run (.mine
      { numIdioms := 100
        output := "hub/tokens/whitespace.json".toList
        train := (("infilling" :: languages).map fun lang => lang ++ ":./hub/data/train/" ++ lang ++ ".bin" ++ ":0.25").map String.toList
        patterns := ["[ ]{1,32}".toList] })) := by
  have hg : ∀ names, "--train".toList ∉ names.map String.toList → ∀ items,
      given (items ++ trainItems ("infilling" :: languages) ":0.25") names = given items names := by
    intro names hn items
    rw [given_append, given_other _ _ _ hn, List.append_nil]
  refine (C84_reads float _ _).2 ⟨"mine", ([("--output", "hub/tokens/whitespace.json"), ("--num-idioms", "100"),
      ("--pattern", "[ ]{1,32}")].map fun q => (q.1.toList, q.2.toList)) ++ trainItems ("infilling" :: languages) ":0.25",
      .inl ?_, .mine _ _ ?_ ?_ ?_ ?_ ?_⟩
  · rw [written_append, ← args_train]
    unfold args Recipes.whitespace
    rw [List.map_append, ← List.cons_append]
    congr 1
  · refine only_append ?_ (only_train _ _ _ (by decide +kernel))
    unfold Only
    decide +kernel
  · exact ⟨"100".toList, by rw [hg _ (by decide +kernel)]; decide +kernel, (parseUsize_iff _ _).1 rfl⟩
  · exact ⟨"hub/tokens/whitespace.json".toList, by rw [hg _ (by decide +kernel)]; decide +kernel, rfl⟩
  · dsimp only
    rw [given_append, given_train]
    have : given ([("--output", "hub/tokens/whitespace.json"), ("--num-idioms", "100"),
      ("--pattern", "[ ]{1,32}")].map fun q => (q.1.toList, q.2.toList)) ["--train"] = [] := by decide +kernel
    rw [this, List.nil_append]
  · dsimp only; rw [hg _ (by decide +kernel)]; decide +kernel

end Tokengeex

import Verif.Proofs.Sources
import Verif.Model.Plots
import Verif.Props.EvalScripts
import Mathlib.Tactic.FieldSimp
import Mathlib.Tactic.Positivity
import Mathlib.Tactic.Linarith
import Mathlib.Algebra.BigOperators.Group.List.Basic
import Mathlib.Algebra.Order.BigOperators.Group.List
/-
C116: what scripts/plot.py shows.
-/
namespace Tokengeex
open Spec Scripts

theorem splitOn_sep (sep : Char) (dir file : Str) :
    splitOn (· == sep) (dir ++ sep :: file) = splitOn (· == sep) dir ++ splitOn (· == sep) file := by
  induction dir with
  | nil => simp [splitOn]
  | cons c dir ih =>
    rw [List.cons_append, splitOn, splitOn, ih]
    by_cases hc : (c == sep) = true
    · rw [if_pos hc, if_pos hc]; rfl
    · rw [if_neg hc, if_neg hc]
      rcases hs : splitOn (· == sep) dir with _ | ⟨a, l⟩
      · exact absurd hs (splitOn_ne_nil _ _)
      · rfl

/-- **C116**, names.  The name of a language is the file name without its directories, up to the first dot. -/
theorem C116_name (dir name rest : Str) (h1 : '/' ∉ name) (h2 : '.' ∉ name) (h3 : '/' ∉ rest) :
    baseName (dir ++ '/' :: (name ++ '.' :: rest)) = name ∧ baseName (name ++ '.' :: rest) = name := by
  have key : (splitOn (· == '.') (name ++ '.' :: rest)).headD [] = name := by
    rw [splitOn_append '.' name rest h2]; rfl
  have hfile : '/' ∉ name ++ '.' :: rest := by
    simp only [List.mem_append, List.mem_cons, not_or]
    exact ⟨h1, by decide, h3⟩
  unfold baseName
  refine ⟨by rw [splitOn_sep, splitOn_no_sep '/' _ hfile, List.getLastD_concat, key], ?_⟩
  rw [splitOn_no_sep '/' _ hfile]
  exact key

theorem mem_record (d : List (Str × Line)) (name : Str) (line : Line) (hn : (d.map Prod.fst).Nodup) :
    ((record d name line).map Prod.fst).Nodup ∧ (∀ n, n ∈ (record d name line).map Prod.fst ↔ n = name ∨ n ∈ d.map Prod.fst) ∧
    ∀ e, e ∈ record d name line ↔ e = (name, line) ∨ (e ∈ d ∧ e.1 ≠ name) := by
  induction d with
  | nil => simp [record]
  | cons x d ih =>
    obtain ⟨n, l⟩ := x
    simp only [List.map_cons, List.nodup_cons] at hn
    obtain ⟨h1, h2, h3⟩ := ih hn.2
    unfold record
    by_cases e : n = name
    · subst e
      rw [if_pos rfl]
      refine ⟨by simpa using hn, by simp, ?_⟩
      intro y
      simp only [List.mem_cons]
      constructor
      · rintro (h | h)
        · exact .inl h
        · refine .inr ⟨.inr h, ?_⟩
          rintro rfl
          exact hn.1 (List.mem_map_of_mem h)
      · rintro (h | ⟨rfl | h, h'⟩)
        · exact .inl h
        · exact absurd rfl h'
        · exact .inr h
    · rw [if_neg e]
      refine ⟨?_, ?_, ?_⟩
      · simp only [List.map_cons, List.nodup_cons]
        refine ⟨?_, h1⟩
        rw [h2]
        rintro (h | h)
        · exact e h
        · exact hn.1 h
      · intro m
        simp only [List.map_cons, List.mem_cons, h2]
        tauto
      · intro y
        simp only [List.mem_cons, h3]
        constructor
        · rintro (rfl | h | ⟨h, h'⟩)
          · exact .inr ⟨.inl rfl, e⟩
          · exact .inl h
          · exact .inr ⟨.inr h, h'⟩
        · rintro (h | ⟨rfl | h, h'⟩)
          · exact .inr (.inl h)
          · exact .inl rfl
          · exact .inr (.inr ⟨h, h'⟩)

/-- **C116**, the table.  No language is in it twice, and a language has the counts of the last file with its name: earlier files
whose names differ only in the directory or after the first dot are forgotten. -/
theorem C116_table (files : List (Str × Line)) :
    ((table files).map Prod.fst).Nodup ∧
    ∀ name line, (name, line) ∈ table files ↔
      ∃ before file after, files = before ++ (file, line) :: after ∧ baseName file = name ∧
        ∀ f ∈ after, baseName f.1 ≠ name := by
  unfold table
  induction files using List.reverseRecOn with
  | nil => simp
  | append_singleton files f ih =>
    rw [List.foldl_append]
    simp only [List.foldl_cons, List.foldl_nil]
    obtain ⟨h1, _, h3⟩ := mem_record _ (baseName f.1) f.2 ih.1
    refine ⟨h1, ?_⟩
    intro name line
    rw [h3]
    constructor
    · rintro (h | ⟨h, h'⟩)
      · simp only [Prod.mk.injEq] at h
        obtain ⟨rfl, rfl⟩ := h
        exact ⟨files, f.1, [], rfl, rfl, by simp⟩
      · obtain ⟨a, file, b, rfl, h4, h5⟩ := (ih.2 name line).1 h
        refine ⟨a, file, b ++ [f], by simp, h4, ?_⟩
        intro g hg
        rcases List.mem_append.1 hg with hg | hg
        · exact h5 g hg
        · simp only [List.mem_singleton] at hg
          subst hg
          exact fun hc => h' hc.symm
    · rintro ⟨a, file, b, e, h4, h5⟩
      rcases List.eq_nil_or_concat b with rfl | ⟨b', g, rfl⟩
      · obtain ⟨-, e2⟩ := List.append_inj' e rfl
        simp only [List.cons.injEq, and_true] at e2
        subst e2
        exact .inl (by simp [h4])
      · have e' : files ++ [f] = (a ++ (file, line) :: b') ++ [g] := by simpa using e
        obtain ⟨rfl, e2⟩ := List.append_inj' e' rfl
        simp only [List.cons.injEq, and_true] at e2
        subst e2
        refine .inr ⟨(ih.2 name line).2 ⟨a, file, b', rfl, h4, fun g' hg' => h5 g' (by simp [hg'])⟩, ?_⟩
        exact fun hc => h5 f (by simp) hc.symm

theorem ratio_bounds (lines : List Line) {a : ℚ} (h : ratio lines = some a) (hpos : ∀ l ∈ lines, 0 < l.tokens) :
    (∀ lo : ℚ, (∀ l ∈ lines, lo ≤ (l.chars : ℚ) / l.tokens) → lo ≤ a) ∧
    (∀ hi : ℚ, (∀ l ∈ lines, (l.chars : ℚ) / l.tokens ≤ hi) → a ≤ hi) := by
  unfold ratio at h
  by_cases hz : (lines.map (·.tokens)).sum = 0
  · rw [if_pos hz] at h; cases h
  · rw [if_neg hz] at h
    cases h
    have hT : (0 : ℚ) < ((lines.map (·.tokens)).sum : ℕ) := by exact_mod_cast Nat.pos_of_ne_zero hz
    constructor
    · intro lo hlo
      rw [le_div_iff₀ hT]
      clear hT hz
      induction lines with
      | nil => simp
      | cons l lines ih =>
        have h1 := ih (fun l hl => hpos l (by simp [hl])) (fun l hl => hlo l (by simp [hl]))
        have hp : (0 : ℚ) < l.tokens := by exact_mod_cast hpos l (by simp)
        have h2 := (le_div_iff₀ hp).1 (hlo l (by simp))
        simp only [List.map_cons, List.sum_cons]
        push_cast at h1 ⊢
        linarith
    · intro hi hhi
      rw [div_le_iff₀ hT]
      clear hT hz
      induction lines with
      | nil => simp
      | cons l lines ih =>
        have h1 := ih (fun l hl => hpos l (by simp [hl])) (fun l hl => hhi l (by simp [hl]))
        have hp : (0 : ℚ) < l.tokens := by exact_mod_cast hpos l (by simp)
        have h2 := (div_le_iff₀ hp).1 (hhi l (by simp))
        simp only [List.map_cons, List.sum_cons]
        push_cast at h1 ⊢
        linarith

theorem ratio_some {lines : List Line} (hne : lines ≠ []) (hpos : ∀ l ∈ lines, 0 < l.tokens) : ∃ a, ratio lines = some a := by
  cases lines with
  | nil => exact absurd rfl hne
  | cons l lines =>
    have := hpos l (by simp)
    exact ⟨_, if_neg (by simp only [List.map_cons, List.sum_cons]; omega)⟩

/-- **C116**, the average.  With at least one file, and none without tokens (evaluate.py stops there), the average is drawn; it lies
between the smallest and the largest ratio of a language. -/
theorem C116_average (files : List (Str × Line)) (hne : files ≠ []) (hpos : ∀ f ∈ files, 0 < f.2.tokens) :
    ∃ a, average (table files) = some a ∧
      (∃ e ∈ table files, (e.2.chars : ℚ) / e.2.tokens ≤ a) ∧ (∃ e ∈ table files, a ≤ (e.2.chars : ℚ) / e.2.tokens) := by
  have hpos' : ∀ e ∈ table files, 0 < e.2.tokens := by
    rintro ⟨name, line⟩ he
    obtain ⟨a, file, b, rfl, _, _⟩ := ((C116_table files).2 name line).1 he
    exact hpos (file, line) (by simp)
  have hne' : table files ≠ [] := by
    rcases List.eq_nil_or_concat files with rfl | ⟨l, f, rfl⟩
    · exact absurd rfl hne
    · intro hc
      have : (baseName f.1, f.2) ∈ table (l.concat f) :=
        ((C116_table _).2 _ _).2 ⟨l, f.1, [], by simp, rfl, by simp⟩
      rw [hc] at this
      cases this
  have hlines : ∀ l ∈ (table files).map (·.2), 0 < l.tokens := by
    intro l hl
    obtain ⟨e, he, rfl⟩ := List.mem_map.1 hl
    exact hpos' e he
  obtain ⟨a, ha⟩ := ratio_some (by simpa using hne') hlines
  obtain ⟨h1, h2⟩ := ratio_bounds _ ha hlines
  refine ⟨a, ha, ?_, ?_⟩
  · by_contra hc
    push Not at hc
    -- the smallest ratio is larger than the average
    have hT : ∀ (d : List (Str × Line)), d ≠ [] → (∀ e ∈ d, a < (e.2.chars : ℚ) / e.2.tokens) →
        ∃ lo : ℚ, a < lo ∧ ∀ e ∈ d, lo ≤ (e.2.chars : ℚ) / e.2.tokens := by
      intro d
      induction d with
      | nil => intro h; exact absurd rfl h
      | cons x d ih =>
        intro _ h
        by_cases hd : d = []
        · subst hd
          exact ⟨_, h x (by simp), by simp⟩
        · obtain ⟨lo, h3, h4⟩ := ih hd (fun e he => h e (by simp [he]))
          refine ⟨min lo ((x.2.chars : ℚ) / x.2.tokens), lt_min h3 (h x (by simp)), ?_⟩
          intro e he
          rcases List.mem_cons.1 he with rfl | he
          · exact min_le_right _ _
          · exact (min_le_left _ _).trans (h4 e he)
    obtain ⟨lo, h3, h4⟩ := hT _ hne' hc
    have := h1 lo (by intro l hl; obtain ⟨e, he, rfl⟩ := List.mem_map.1 hl; exact h4 e he)
    linarith
  · by_contra hc
    push Not at hc
    have hT : ∀ (d : List (Str × Line)), d ≠ [] → (∀ e ∈ d, (e.2.chars : ℚ) / e.2.tokens < a) →
        ∃ hi : ℚ, hi < a ∧ ∀ e ∈ d, (e.2.chars : ℚ) / e.2.tokens ≤ hi := by
      intro d
      induction d with
      | nil => intro h; exact absurd rfl h
      | cons x d ih =>
        intro _ h
        by_cases hd : d = []
        · subst hd
          exact ⟨_, h x (by simp), by simp⟩
        · obtain ⟨hi, h3, h4⟩ := ih hd (fun e he => h e (by simp [he]))
          refine ⟨max hi ((x.2.chars : ℚ) / x.2.tokens), max_lt h3 (h x (by simp)), ?_⟩
          intro e he
          rcases List.mem_cons.1 he with rfl | he
          · exact le_max_right _ _
          · exact (h4 e he).trans (le_max_left _ _)
    obtain ⟨hi, h3, h4⟩ := hT _ hne' hc
    have := h2 hi (by intro l hl; obtain ⟨e, he, rfl⟩ := List.mem_map.1 hl; exact h4 e he)
    linarith

theorem record_fresh (d : List (Str × Line)) (name : Str) (line : Line) (h : name ∉ d.map Prod.fst) :
    record d name line = d ++ [(name, line)] := by
  induction d with
  | nil => rfl
  | cons x d ih =>
    obtain ⟨n, l⟩ := x
    simp only [List.map_cons, List.mem_cons, not_or] at h
    unfold record
    rw [if_neg (fun e => h.1 e.symm), ih h.2]
    rfl

theorem table_distinct (files : List (Str × Line)) (h : (files.map fun f => baseName f.1).Nodup) :
    table files = files.map fun f => (baseName f.1, f.2) := by
  unfold table
  induction files using List.reverseRecOn with
  | nil => rfl
  | append_singleton files f ih =>
    simp only [List.map_append, List.map_cons, List.map_nil] at h
    obtain ⟨h1, _, h3⟩ := List.nodup_append.1 h
    rw [List.foldl_append, ih h1]
    simp only [List.foldl_cons, List.foldl_nil]
    rw [record_fresh]
    · simp
    · intro hm
      simp only [List.map_map, List.mem_map, Function.comp] at hm
      obtain ⟨g, hg, e⟩ := hm
      exact h3 _ (List.mem_map_of_mem hg) (baseName f.1) (by simp) e

/-- **C116**, what is averaged.  If no two files have the same base name, the average is the number of characters of all samples of
all files divided by the number of their tokens: files count by their size. -/
theorem C116_whole (encode : Str → List Nat) (vocabSize : Nat) (names texts : List Str) (freq : List Nat) (lines : List Line)
    (hlen : names.length = texts.length) (hd : (names.map baseName).Nodup) (hne : texts ≠ [])
    (h : evalFiles encode texts (List.replicate vocabSize 0) = some (freq, lines)) :
    average (table (names.zip lines)) =
      some (((((texts.flatMap evalParts).map List.length).sum : ℕ) : ℚ) / (((texts.flatMap evalParts).flatMap encode).length : ℕ)) := by
  obtain ⟨hl, -, -⟩ := C94_counts encode vocabSize texts freq lines h
  have hpos : ∀ text ∈ texts, 0 < ((evalParts text).map fun s => (encode s).length).sum := by
    intro text ht
    rcases Nat.eq_zero_or_pos ((evalParts text).map fun s => (encode s).length).sum with h0 | h0
    · exfalso
      have : evalFiles encode texts (List.replicate vocabSize 0) = none := by
        refine (C94_fails encode vocabSize texts).2 ⟨text, ht, .inr ?_⟩
        intro s hs
        have := (sum_zero_iff _).1 h0 _ (List.mem_map_of_mem hs)
        exact List.length_eq_zero_iff.1 this
      rw [h] at this
      cases this
    · exact h0
  have hzip : names.length = lines.length := by rw [hl, List.length_map, hlen]
  have hkeys : (names.zip lines).map (fun f => baseName f.1) = names.map baseName := by
    rw [show (fun f : Str × Line => baseName f.1) = baseName ∘ Prod.fst from rfl, ← List.map_map, List.map_fst_zip (by omega)]
  have hvals : ((table (names.zip lines)).map (·.2)) = lines := by
    rw [table_distinct _ (by rw [hkeys]; exact hd), List.map_map]
    exact List.map_snd_zip (by omega)
  have hchars : (lines.map (·.chars)).sum = ((texts.flatMap evalParts).map List.length).sum := by
    rw [hl, List.map_map]
    clear h hl hpos hzip hkeys hvals hlen hne
    induction texts with
    | nil => rfl
    | cons t texts ih =>
      simp only [List.map_cons, List.sum_cons, List.flatMap_cons, List.map_append, List.sum_append, ih, Function.comp]
  have htokens : (lines.map (·.tokens)).sum = ((texts.flatMap evalParts).flatMap encode).length := by
    rw [hl, List.map_map]
    clear h hl hpos hzip hkeys hvals hlen hne hchars
    induction texts with
    | nil => rfl
    | cons t texts ih =>
      simp only [List.map_cons, List.sum_cons, List.flatMap_cons, List.flatMap_append, List.length_append, ih, Function.comp,
        List.length_flatMap]
  unfold average ratio
  rw [hvals, hchars, htokens]
  refine if_neg ?_
  rw [← htokens, hl]
  cases texts with
  | nil => exact absurd rfl hne
  | cons t texts =>
    have := hpos t (by simp)
    simp only [List.map_cons, List.sum_cons]
    omega

theorem lookup_some {d : List (Str × Line)} (hn : (d.map Prod.fst).Nodup) (name : Str) (line : Line) :
    lookup d name = some line ↔ (name, line) ∈ d := by
  unfold lookup
  induction d with
  | nil => simp
  | cons x d ih =>
    obtain ⟨n, l⟩ := x
    simp only [List.map_cons, List.nodup_cons] at hn
    rw [List.find?_cons]
    by_cases e : n = name
    · subst e
      simp only [decide_true, Option.map_some, Option.some.injEq, List.mem_cons, Prod.mk.injEq, true_and]
      constructor
      · rintro rfl; exact .inl rfl
      · rintro (rfl | h)
        · rfl
        · exact absurd (List.mem_map_of_mem (f := Prod.fst) h) hn.1
    · simp only [e, decide_false, List.mem_cons, Prod.mk.injEq]
      rw [ih hn.2]
      constructor
      · exact fun h => .inr h
      · rintro (⟨h, _⟩ | h)
        · exact absurd h.symm e
        · exact h

/-- **C116**, the averages of some languages.  The line is drawn exactly if all of them are in the table, and then at the number of
characters of these languages divided by the number of their tokens; no other language matters. -/
theorem C116_subset (langs : List Str) (hne : langs ≠ []) (files : List (Str × Line)) (hpos : ∀ f ∈ files, 0 < f.2.tokens) (a : ℚ) :
    subsetAverage langs (table files) = some a ↔
      ∃ lines : List Line, List.Forall₂ (fun lang line => (lang, line) ∈ table files) langs lines ∧
        a = (((lines.map (·.chars)).sum : ℕ) : ℚ) / ((lines.map (·.tokens)).sum : ℕ) := by
  have hn := (C116_table files).1
  have hpos' : ∀ e ∈ table files, 0 < e.2.tokens := by
    rintro ⟨name, line⟩ he
    obtain ⟨a, file, b, rfl, _, _⟩ := ((C116_table files).2 name line).1 he
    exact hpos (file, line) (by simp)
  generalize table files = d at *
  have key : ∀ (langs : List Str), (langs.all fun lang => (lookup d lang).isSome) = true →
      List.Forall₂ (fun lang line => (lang, line) ∈ d) langs (langs.filterMap (lookup d)) := by
    intro langs
    induction langs with
    | nil => intro _; exact .nil
    | cons x langs ih =>
      intro h
      simp only [List.all_cons, Bool.and_eq_true] at h
      obtain ⟨l, hl⟩ := Option.isSome_iff_exists.1 h.1
      rw [List.filterMap_cons_some hl]
      exact .cons ((lookup_some hn x l).1 hl) (ih h.2)
  have uniq : ∀ (langs : List Str) (lines : List Line), List.Forall₂ (fun lang line => (lang, line) ∈ d) langs lines →
      (langs.all fun lang => (lookup d lang).isSome) = true ∧ langs.filterMap (lookup d) = lines := by
    intro langs lines h
    induction h with
    | nil => exact ⟨rfl, rfl⟩
    | cons h1 _ ih =>
      have := (lookup_some hn _ _).2 h1
      refine ⟨?_, ?_⟩
      · simp only [List.all_cons, Bool.and_eq_true]
        exact ⟨by rw [this]; rfl, ih.1⟩
      · rw [List.filterMap_cons_some this, ih.2]
  have hr : ∀ lines : List Line, List.Forall₂ (fun lang line => (lang, line) ∈ d) langs lines →
      ratio lines = some ((((lines.map (·.chars)).sum : ℕ) : ℚ) / ((lines.map (·.tokens)).sum : ℕ)) := by
    intro lines hl
    unfold ratio
    refine if_neg ?_
    cases hl with
    | nil => exact absurd rfl hne
    | cons h1 _ =>
      have := hpos' _ h1
      simp only [List.map_cons, List.sum_cons] at this ⊢
      omega
  unfold subsetAverage
  constructor
  · intro h
    by_cases hall : (langs.all fun lang => (lookup d lang).isSome) = true
    · rw [if_pos hall, hr _ (key langs hall)] at h
      cases h
      exact ⟨_, key langs hall, rfl⟩
    · rw [if_neg hall] at h
      cases h
  · rintro ⟨lines, hl, rfl⟩
    obtain ⟨h1, h2⟩ := uniq langs lines hl
    rw [if_pos h1, h2, hr lines hl]

/-- **C116**, the second plot.  It fails to show anything exactly if all buckets are empty; else the bars add up to 100 %, each is a
bucket's share, and they decrease like the buckets. -/
theorem C116_percentages (buckets : List Nat) :
    (percentages buckets = none ↔ ∀ b ∈ buckets, b = 0) ∧
    ∀ bars, percentages buckets = some bars →
      bars.sum = 100 ∧ bars.length = buckets.length ∧
      (∀ (i : Nat) b x, buckets[i]? = some b → bars[i]? = some x → x * buckets.sum = 100 * b ∧ 0 ≤ x ∧ x ≤ 100) ∧
      (buckets.Pairwise (· ≥ ·) → bars.Pairwise (· ≥ ·)) := by
  unfold percentages
  by_cases hz : buckets.sum = 0
  · rw [if_pos hz]
    exact ⟨⟨fun _ => (sum_zero_iff _).1 hz, fun _ => rfl⟩, by intro bars h; cases h⟩
  · rw [if_neg hz]
    refine ⟨⟨(fun h => by cases h), fun h => absurd ((sum_zero_iff _).2 h) hz⟩, ?_⟩
    rintro bars h
    cases h
    have hS : (0 : ℚ) < (buckets.sum : ℕ) := by exact_mod_cast Nat.pos_of_ne_zero hz
    have hsum : ∀ (l : List Nat) (c : ℚ), (l.map fun b : ℕ => (b : ℚ) / c * 100).sum = (l.sum : ℕ) / c * 100 := by
      intro l c
      induction l with
      | nil => simp
      | cons b l ih =>
        simp only [List.map_cons, List.sum_cons, ih]
        push_cast
        ring
    refine ⟨?_, by simp, ?_, ?_⟩
    · rw [hsum, div_self hS.ne', one_mul]
    · intro i b x hb hx
      rw [List.getElem?_map, hb, Option.map_some, Option.some.injEq] at hx
      subst hx
      have hle : b ≤ buckets.sum := List.le_sum_of_mem (List.mem_of_getElem? hb)
      have hle' : (b : ℚ) ≤ (buckets.sum : ℕ) := by exact_mod_cast hle
      refine ⟨by field_simp, by positivity, ?_⟩
      have : (b : ℚ) / (buckets.sum : ℕ) ≤ 1 := (div_le_one hS).2 hle'
      linarith
    · intro hp
      refine hp.map _ ?_
      intro x y hxy
      have : (y : ℚ) ≤ x := by exact_mod_cast hxy
      have := div_le_div_of_nonneg_right this hS.le
      show _ ≤ _
      linarith

/-- Non-vacuity: files of two languages, one of them in two parts, of which the first is forgotten. -/
example : table [("d/c.1.bin".toList, ⟨5, 10⟩), ("d/go.bin".toList, ⟨10, 40⟩), ("d/c.2.bin".toList, ⟨30, 60⟩)] =
    [("c".toList, ⟨30, 60⟩), ("go".toList, ⟨10, 40⟩)] ∧
    average [("c".toList, ⟨30, 60⟩), ("go".toList, ⟨10, 40⟩)] = some (5 / 2) ∧
    subsetAverage humanEvalX [("c".toList, ⟨30, 60⟩), ("go".toList, ⟨10, 40⟩)] = none ∧
    subsetAverage ["go".toList] [("c".toList, ⟨30, 60⟩), ("go".toList, ⟨10, 40⟩)] = some 4 ∧
    percentages [3, 1, 0] = some [75, 25, 0] := by
  refine ⟨by decide +kernel, ?_, by decide +kernel, ?_, ?_⟩
  · unfold average ratio; norm_num
  · rw [show subsetAverage ["go".toList] [("c".toList, ⟨30, 60⟩), ("go".toList, ⟨10, 40⟩)] = ratio [⟨10, 40⟩] from rfl]
    unfold ratio; norm_num
  · unfold percentages; norm_num

end Tokengeex

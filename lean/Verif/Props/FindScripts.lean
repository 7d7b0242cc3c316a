import Verif.Props.EvalScripts

/-! What the evaluation and search scripts read and count. -/

namespace Tokengeex
namespace Scripts
open Spec

theorem universalNewlines_append (line rest : Str) (h : '\r' ∉ line) :
    universalNewlines (line ++ rest) = line ++ universalNewlines rest := by
  induction line with
  | nil => rfl
  | cons c line ih =>
    have hc : c ≠ '\r' := fun e => h (by rw [e]; simp)
    have hl : '\r' ∉ line := fun e => h (List.mem_cons_of_mem _ e)
    rw [List.cons_append, List.cons_append, ← ih hl]
    rw [universalNewlines.eq_3]
    · rw [if_neg hc]
    · rintro rest' rfl _
      exact hc rfl

end Scripts

/-- **C94** Lines that end with a carriage return and a line feed are read as lines that end with a line feed. -/
theorem C94_newlines_crlf (lines : List Str) (h : ∀ l ∈ lines, '\r' ∉ l) :
    Scripts.universalNewlines (List.intercalate ['\r', '\n'] lines) = List.intercalate ['\n'] lines := by
  induction lines with
  | nil => rfl
  | cons l lines ih =>
    cases lines with
    | nil =>
      simp only [List.intercalate_singleton]
      have := Scripts.universalNewlines_append l [] (h l (by simp))
      simpa [Scripts.universalNewlines] using this
    | cons l' lines =>
      rw [List.intercalate_cons_cons, List.intercalate_cons_cons, List.append_assoc, List.append_assoc, Scripts.universalNewlines_append _ _ (h l (by simp)), ← ih (fun x hx => h x (List.mem_cons_of_mem _ hx))]
      rfl

/-- **C94** So are lines that end with a carriage return alone. -/
theorem C94_newlines_cr (lines : List Str) (h : ∀ l ∈ lines, '\r' ∉ l ∧ '\n' ∉ l) :
    Scripts.universalNewlines (List.intercalate ['\r'] lines) = List.intercalate ['\n'] lines := by
  induction lines with
  | nil => rfl
  | cons l lines ih =>
    cases lines with
    | nil =>
      simp only [List.intercalate_singleton]
      have := Scripts.universalNewlines_append l [] (h l (by simp)).1
      simpa [Scripts.universalNewlines] using this
    | cons l' lines =>
      rw [List.intercalate_cons_cons, List.intercalate_cons_cons, List.append_assoc, List.append_assoc, Scripts.universalNewlines_append _ _ (h l (by simp)).1, ← ih (fun x hx => h x (List.mem_cons_of_mem _ hx))]
      congr 1
      rw [List.singleton_append, Scripts.universalNewlines.eq_3]
      · rfl
      · intro rest _ e
        rcases l' with _ | ⟨c, l'⟩
        · rcases lines with _ | ⟨l'', lines⟩
          · simp at e
          · rw [List.intercalate_cons_cons] at e
            simp at e
        · have hc := (h (c :: l') (by simp)).2
          rcases lines with _ | ⟨l'', lines⟩
          · rw [List.intercalate_singleton] at e
            exact hc (by rw [(List.cons.inj e).1]; simp)
          · rw [List.intercalate_cons_cons] at e
            simp only [List.cons_append] at e
            exact hc (by rw [(List.cons.inj e).1]; simp)

example : Scripts.universalNewlines (List.intercalate ['\r', '\n'] [['a'], [], ['b']]) = ['a', '\n', '\n', 'b'] := by decide

/-- **C94** The samples of a file are what lies between the NULs in what is read. -/
theorem C94_samples (text : Str) : Spec.Parts '\x00' (Scripts.universalNewlines text) (evalParts text) := splitOn_parts _ _

namespace Scripts

theorem occurrencesGo_exists (pat : Str) : ∀ (fuel : Nat) (s : Str),
    ∃ gaps : List Str, gaps.length = occurrencesGo pat fuel s + 1 ∧ List.intercalate pat gaps = s := by
  intro fuel
  induction fuel with
  | zero => intro s; exact ⟨[s], rfl, by simp⟩
  | succ fuel ih =>
    intro s
    rcases s with _ | ⟨c, cs⟩
    · exact ⟨[[]], rfl, by simp⟩
    · rw [occurrencesGo]
      by_cases h : pat.isPrefixOf (c :: cs) = true
      · rw [if_pos h]
        obtain ⟨t, ht⟩ := List.isPrefixOf_iff_prefix.1 h
        obtain ⟨gaps, hl, hj⟩ := ih ((c :: cs).drop pat.length)
        refine ⟨[] :: gaps, by simp [hl]; omega, ?_⟩
        rcases gaps with _ | ⟨g, gaps⟩
        · simp at hl
        · rw [List.intercalate_cons_cons, hj, ← ht]
          simp
      · rw [if_neg h]
        obtain ⟨gaps, hl, hj⟩ := ih cs
        rcases gaps with _ | ⟨g, gaps⟩
        · simp at hl
        · refine ⟨(c :: g) :: gaps, by simpa using hl, ?_⟩
          rcases gaps with _ | ⟨g', gaps⟩
          · simpa using hj
          · rw [List.intercalate_cons_cons] at hj ⊢
            rw [← hj]; simp

/-- Dropping characters in front loses at most one piece per occurrence that is touched. -/
theorem intercalate_drop (pat : Str) : ∀ (gaps : List Str) (n : Nat), n ≤ pat.length → gaps ≠ [] →
    n ≤ (List.intercalate pat gaps).length →
    ∃ gaps' : List Str, List.intercalate pat gaps' = (List.intercalate pat gaps).drop n ∧ gaps' ≠ [] ∧ gaps.length ≤ gaps'.length + 1 := by
  intro gaps n hn hne hlen
  rcases gaps with _ | ⟨g, gaps⟩
  · exact absurd rfl hne
  · rcases gaps with _ | ⟨g', gaps⟩
    · exact ⟨[g.drop n], by simp, by simp, by simp⟩
    · rw [List.intercalate_cons_cons]
      rcases Nat.lt_or_ge g.length n with h | h
      · -- the rest of the occurrence is dropped with the text before the next one
        refine ⟨(((g ++ pat).drop n) ++ g') :: gaps, ?_, by simp, by simp⟩
        have h1 : n ≤ (g ++ pat).length := by simp; omega
        rcases gaps with _ | ⟨g'', gaps⟩
        · simp only [List.intercalate_singleton]
          rw [List.drop_append_of_le_length h1]
        · rw [List.intercalate_cons_cons, List.intercalate_cons_cons]
          rw [List.drop_append_of_le_length h1]
          simp [List.append_assoc]
      · refine ⟨(g.drop n) :: g' :: gaps, ?_, by simp, by simp⟩
        rw [List.intercalate_cons_cons, List.append_assoc, List.append_assoc, List.drop_append_of_le_length h]

theorem occurrencesGo_max {pat : Str} (hp : pat ≠ []) : ∀ (fuel : Nat) (s : Str), s.length ≤ fuel → ∀ gaps : List Str, gaps ≠ [] →
    List.intercalate pat gaps = s → gaps.length ≤ occurrencesGo pat fuel s + 1 := by
  have hpos : 0 < pat.length := List.length_pos_iff.2 hp
  intro fuel
  induction fuel with
  | zero =>
    intro s hs gaps hne he
    have h0 : s = [] := List.length_eq_zero_iff.1 (by omega)
    subst h0
    rcases gaps with _ | ⟨g, gaps⟩
    · simp
    · rcases gaps with _ | ⟨g', gaps⟩
      · simp
      · rw [List.intercalate_cons_cons] at he
        simp [hp] at he
  | succ fuel ih =>
    intro s hs gaps hne he
    rcases s with _ | ⟨c, cs⟩
    · rcases gaps with _ | ⟨g, gaps⟩
      · simp
      · rcases gaps with _ | ⟨g', gaps⟩
        · simp
        · rw [List.intercalate_cons_cons] at he
          simp [hp] at he
    · rw [occurrencesGo]
      by_cases h : pat.isPrefixOf (c :: cs) = true
      · rw [if_pos h]
        obtain ⟨gaps', h1, h2, h3⟩ := intercalate_drop pat gaps pat.length (le_refl _) hne
          (by rw [he]; exact (List.isPrefixOf_iff_prefix.1 h).length_le)
        rw [he] at h1
        have := ih ((c :: cs).drop pat.length) (by simp at hs ⊢; omega) gaps' h2 h1
        omega
      · rw [if_neg h]
        rcases gaps with _ | ⟨g, gaps⟩
        · simp
        · rcases gaps with _ | ⟨g', gaps⟩
          · simp
          · rcases g with _ | ⟨d, g⟩
            · rw [List.intercalate_cons_cons] at he
              exact absurd (List.isPrefixOf_iff_prefix.2 ⟨_, he⟩) h
            · rw [List.intercalate_cons_cons] at he
              have := ih cs (by simp at hs; omega) (g :: g' :: gaps) (by simp) (by
                rw [List.intercalate_cons_cons]
                simpa using (List.cons.inj he).2)
              simpa using this

end Scripts

open Scripts Spec

/-- **C96** What is counted in a sample is the greatest number of occurrences that do not overlap: the sample can be cut at so
many occurrences of the string, and not at more. -/
theorem C96_occurrences (pat s : Str) (hp : pat ≠ []) :
    (∃ gaps : List Str, gaps.length = countIn pat s + 1 ∧ List.intercalate pat gaps = s) ∧
    ∀ gaps : List Str, List.intercalate pat gaps = s → gaps.length ≤ countIn pat s + 1 := by
  refine ⟨occurrencesGo_exists pat _ _, fun gaps he => ?_⟩
  rcases gaps with _ | ⟨g, gaps⟩
  · simp
  · exact occurrencesGo_max hp _ _ (le_refl _) _ (by simp) he

/-- **C96** The numbers of a file: its samples are the parts between NULs; the occurrences in all of them are added up, and the
samples that contain the string are counted. -/
theorem C96_counts (pat : Str) (hp : pat ≠ []) (text : Str) (samples : List Str) (hs : Parts '\x00' text samples) :
    (findFile pat text).occurrences = (samples.map (countIn pat)).sum ∧ (findFile pat text).samples = samples.length ∧
    ∃ found : Str → Bool, (∀ s, found s = true ↔ pat <:+: s) ∧ (findFile pat text).bySample = samples.countP found := by
  have e : pySamples text = samples := splitOn_of_parts hs
  refine ⟨by unfold findFile; rw [e], by unfold findFile; rw [e], fun s => decide (0 < countIn pat s), fun s => ?_, ?_⟩
  · rw [decide_eq_true_iff]
    obtain ⟨⟨gaps, h1, h2⟩, h3⟩ := C96_occurrences pat s hp
    constructor
    · intro hpos
      rcases gaps with _ | ⟨g, _ | ⟨g', gaps⟩⟩
      · simp at h1
      · simp at h1; omega
      · rw [List.intercalate_cons_cons] at h2
        exact ⟨g, _, h2⟩
    · rintro ⟨a, b, rfl⟩
      have := h3 [a, b] (by simp [List.intercalate_cons_cons])
      simp only [List.length_cons, List.length_nil] at this
      omega
  · unfold findFile
    rw [e, List.countP_eq_length_filter]

/-- In "aaa" there is one "aa" that is counted; two overlap. -/
example : countIn ['a', 'a'] ['a', 'a', 'a'] = 1 ∧ List.intercalate ['a', 'a'] [[], ['a']] = ['a', 'a', 'a'] := by decide
example : Parts '\x00' ['a', 'b', '\x00', 'b'] [['a', 'b'], ['b']] := by unfold Parts; decide

end Tokengeex

import Verif.Model.Processor
import Verif.Spec.Crlf
/-
C25: the CRLF processor (src/processor.rs).
-/
namespace Tokengeex
open Spec
variable {norm : UnicodeForm → Str → Str}

/-- `dropCrBeforeLf` as a recursion. -/
theorem dropCrBeforeLf_cons (c : Char) (cs : Str) :
    dropCrBeforeLf (c :: cs) = if c = '\r' ∧ cs.head? = some '\n' then dropCrBeforeLf cs else c :: dropCrBeforeLf cs := by
  unfold dropCrBeforeLf
  rw [List.length_cons, List.range_succ_eq_map, List.filterMap_cons]
  have e : (List.map Nat.succ (List.range cs.length)).filterMap (fun i =>
        if (c :: cs)[i]? = some '\r' ∧ (c :: cs)[i + 1]? = some '\n' then none else (c :: cs)[i]?) =
      (List.range cs.length).filterMap (fun i => if cs[i]? = some '\r' ∧ cs[i + 1]? = some '\n' then none else cs[i]?) := by
    rw [List.filterMap_map]; rfl
  rw [e]
  simp only [List.getElem?_cons_zero, Option.some.injEq, Nat.zero_add, List.getElem?_cons_succ]
  have h0 : cs[0]? = cs.head? := by cases cs <;> rfl
  rw [h0]
  by_cases hc : c = '\r' ∧ cs.head? = some '\n'
  · rw [if_pos hc, if_pos hc]
  · rw [if_neg hc, if_neg hc]

theorem replaceGo_crlf : ∀ (n : Nat) (s : Str), s.length ≤ n → replaceGo ['\r', '\n'] ['\n'] n s = dropCrBeforeLf s := by
  intro n
  induction n with
  | zero =>
    intro s h
    have : s = [] := List.length_eq_zero_iff.1 (by omega)
    subst this; rfl
  | succ n ih =>
    intro s h
    cases s with
    | nil => rfl
    | cons c cs =>
      unfold replaceGo
      rw [dropCrBeforeLf_cons]
      cases cs with
      | nil =>
        simp only [List.isPrefixOf, Bool.and_false, Bool.false_eq_true, if_false, List.head?_nil, reduceCtorEq, and_false]
        rw [ih [] (by simp)]
      | cons d ds =>
        have hlen : ds.length + 1 ≤ n := by simp at h; omega
        by_cases hc : c = '\r' ∧ d = '\n'
        · obtain ⟨rfl, rfl⟩ := hc
          rw [if_pos (by simp [List.isPrefixOf]), if_pos (by simp), dropCrBeforeLf_cons, if_neg (fun h => absurd h.1 (by decide))]
          simp only [List.drop, List.length_cons, List.length_nil, List.singleton_append]
          rw [ih ds (by omega)]
        · rw [if_neg (by simp only [List.isPrefixOf, Bool.and_true, Bool.and_eq_true, beq_iff_eq]; exact fun h => hc ⟨h.1.symm, h.2.symm⟩), if_neg (by simpa using hc), ih _ (by simpa using hlen)]

theorem infix_cons {p : Str} {c : Char} {cs : Str} : p <:+: c :: cs ↔ p <+: c :: cs ∨ p <:+: cs := List.infix_cons_iff

theorem dropCrBeforeLf_head {cs : Str} : (dropCrBeforeLf cs).head? = some '\n' ↔
    cs.head? = some '\n' ∨ ∃ ds, cs = '\r' :: '\n' :: ds := by
  cases cs with
  | nil => simp [dropCrBeforeLf]
  | cons c cs =>
    rw [dropCrBeforeLf_cons]
    by_cases hc : c = '\r' ∧ cs.head? = some '\n'
    · rw [if_pos hc]
      obtain ⟨rfl, h⟩ := hc
      cases cs with
      | nil => simp at h
      | cons d ds =>
        simp only [List.head?_cons, Option.some.injEq] at h
        subst h
        rw [dropCrBeforeLf_cons, if_neg (fun h => absurd h.1 (by decide))]
        simp
    · rw [if_neg hc]
      simp only [List.head?_cons, Option.some.injEq, List.cons.injEq]
      constructor
      · exact .inl
      · rintro (h | ⟨ds, h1, h2⟩)
        · exact h
        · exact absurd ⟨h1, by rw [h2]; rfl⟩ hc

theorem prefix_pair {a b : Char} {s : Str} : [a, b] <+: s ↔ ∃ t, s = a :: b :: t := by
  constructor
  · rintro ⟨t, rfl⟩; exact ⟨t, rfl⟩
  · rintro ⟨t, rfl⟩; exact ⟨t, rfl⟩

theorem prefix_triple {a b c : Char} {s : Str} : [a, b, c] <+: s ↔ ∃ t, s = a :: b :: c :: t := by
  constructor
  · rintro ⟨t, rfl⟩; exact ⟨t, rfl⟩
  · rintro ⟨t, rfl⟩; exact ⟨t, rfl⟩

/-- **C25** The processor deletes exactly the `\r`s directly followed by `\n`. -/
theorem C25_crlf_exact (s : Str) : Processor.crlf.preprocess norm s = dropCrBeforeLf s :=
  replaceGo_crlf _ s (Nat.le_refl _)

/-- **C25** Text without `\r\n` is unchanged. -/
theorem C25_crlf_unchanged (s : Str) (h : ¬ ['\r', '\n'] <:+: s) : Processor.crlf.preprocess norm s = s := by
  rw [C25_crlf_exact]
  induction s with
  | nil => rfl
  | cons c cs ih =>
    rw [infix_cons, not_or] at h
    rw [dropCrBeforeLf_cons, if_neg, ih h.2]
    rintro ⟨rfl, hd⟩
    cases cs with
    | nil => simp at hd
    | cons d ds =>
      simp only [List.head?_cons, Option.some.injEq] at hd
      subst hd
      exact h.1 (prefix_pair.2 ⟨ds, rfl⟩)

/-- **C25** (exactly when the output is free of `\r\n`) The output contains `\r\n` if and only if the input contains
`\r\r\n`. -/
theorem C25_crlf_residual (s : Str) :
    ['\r', '\n'] <:+: Processor.crlf.preprocess norm s ↔ ['\r', '\r', '\n'] <:+: s := by
  rw [C25_crlf_exact]
  induction s with
  | nil => simp [dropCrBeforeLf]
  | cons c cs ih =>
    rw [infix_cons (p := ['\r', '\r', '\n']), dropCrBeforeLf_cons, prefix_triple]
    by_cases hc : c = '\r' ∧ cs.head? = some '\n'
    · rw [if_pos hc, ih]
      constructor
      · exact .inr
      · rintro (⟨t, ht⟩ | h)
        · simp only [List.cons.injEq] at ht
          rw [ht.2] at hc; simp at hc
        · exact h
    · rw [if_neg hc, infix_cons, ih, prefix_pair]
      constructor
      · rintro (⟨t, ht⟩ | h)
        · simp only [List.cons.injEq] at ht
          obtain ⟨rfl, ht⟩ := ht
          have : (dropCrBeforeLf cs).head? = some '\n' := by rw [ht]; rfl
          rcases dropCrBeforeLf_head.1 this with h | ⟨ds, h⟩
          · exact absurd ⟨rfl, h⟩ hc
          · exact .inl ⟨ds, by rw [h]⟩
        · exact .inr h
      · rintro (⟨t, ht⟩ | h)
        · simp only [List.cons.injEq] at ht
          obtain ⟨rfl, rfl⟩ := ht
          left
          refine ⟨dropCrBeforeLf t, ?_⟩
          rw [dropCrBeforeLf_cons, if_pos (by simp), dropCrBeforeLf_cons, if_neg (fun h => absurd h.1 (by decide))]
        · exact .inr h

/-- **C25** (false as stated) The output may still contain `\r\n`. -/
theorem C25_crlf_free_false :
    ¬ ∀ (norm : UnicodeForm → Str → Str) (s : Str), ¬ ['\r', '\n'] <:+: Processor.crlf.preprocess norm s := by
  intro h
  exact h (fun _ s => s) ['\r', '\r', '\n'] (by decide)

/-- **C25** (what holds) Without `\r\r\n` in the input, the output contains no `\r\n`. -/
theorem C25_crlf_free_partial (s : Str) (h : ¬ ['\r', '\r', '\n'] <:+: s) :
    ¬ ['\r', '\n'] <:+: Processor.crlf.preprocess norm s := by
  rwa [C25_crlf_residual]

example : Processor.crlf.preprocess (fun _ s => s) ['a', '\r', '\n', '\r', 'b', '\r', '\n'] = ['a', '\n', '\r', 'b', '\n'] ∧
    ¬ ['\r', '\r', '\n'] <:+: ['a', '\r', '\n', '\r', 'b', '\r', '\n'] := by decide

end Tokengeex

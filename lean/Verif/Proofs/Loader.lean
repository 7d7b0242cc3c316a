import Verif.Proofs.Serde
/-
What the loaders accept, in terms of the members of the document.
-/
namespace Tokengeex
open Spec
variable {F : Type}

/-- A decoder as a relation. -/
abbrev Decodes {α : Type} (decode : Json RawStr F → Option α) (j : Json RawStr F) (x : α) : Prop := decode j = some x

theorem asKey_iff {k : RawStr} {s : Str} : asKey k = some s ↔ k.escaped = false ∧ k.text = s := by
  unfold asKey
  cases k.escaped <;> simp

theorem lastMember_nil (name : Str) : lastMember name ([] : List (RawStr × Json RawStr F)) = none := rfl

theorem lastMember_snoc (name : Str) (ms : List (RawStr × Json RawStr F)) (m : RawStr × Json RawStr F) :
    lastMember name (ms ++ [m]) = if m.1.text = name then some m.2 else lastMember name ms := by
  unfold lastMember
  rw [List.reverse_append, List.reverse_singleton, List.singleton_append, List.find?_cons]
  by_cases h : m.1.text = name
  · simp [h]
  · simp [h]

theorem lastMember_mem {name : Str} {ms : List (RawStr × Json RawStr F)} {v : Json RawStr F}
    (h : lastMember name ms = some v) : ∃ m ∈ ms, m.1.text = name ∧ m.2 = v := by
  unfold lastMember at h
  obtain ⟨m, hm, hv⟩ := Option.map_eq_some_iff.1 h
  exact ⟨m, List.mem_reverse.1 (List.mem_of_find?_eq_some hm), by simpa using List.find?_some hm, hv⟩

theorem lastMember_none {name : Str} {ms : List (RawStr × Json RawStr F)} (h : lastMember name ms = none) :
    ∀ m ∈ ms, m.1.text ≠ name := by
  unfold lastMember at h
  rw [Option.map_eq_none_iff, List.find?_eq_none] at h
  intro m hm
  simpa using h m (List.mem_reverse.2 hm)

section
variable {α : Type} {name : Str} {decode : Json RawStr F → Option α} {default : α}

theorem isField_nil {r : α} : IsField name (Decodes decode) default [] r ↔ r = default := by
  unfold IsField; simp [lastMember_nil]

theorem isField_other {ms : List (RawStr × Json RawStr F)} {m : RawStr × Json RawStr F} {r : α}
    (h : m.1.text ≠ name) : IsField name (Decodes decode) default (ms ++ [m]) r ↔ IsField name (Decodes decode) default ms r := by
  unfold IsField
  rw [lastMember_snoc, if_neg h]
  constructor
  · rintro ⟨h1, h2⟩; exact ⟨fun x hx => h1 x (by simp [hx]), h2⟩
  · rintro ⟨h1, h2⟩
    refine ⟨fun x hx hn => ?_, h2⟩
    rcases List.mem_append.1 hx with hx' | hx'
    · exact h1 x hx' hn
    · simp only [List.mem_singleton] at hx'; subst hx'; exact absurd hn h

theorem isField_exists {ms : List (RawStr × Json RawStr F)}
    (h : ∀ m ∈ ms, m.1.text = name → ∃ x, decode m.2 = some x) : ∃ r, IsField name (Decodes decode) default ms r := by
  cases hl : lastMember name ms with
  | none => exact ⟨default, h, by rw [hl]⟩
  | some v =>
    obtain ⟨m, hm, hn, rfl⟩ := lastMember_mem hl
    obtain ⟨x, hx⟩ := h m hm hn
    exact ⟨x, h, by rw [hl]; exact hx⟩

theorem isField_same {ms : List (RawStr × Json RawStr F)} {m : RawStr × Json RawStr F} {r : α}
    (h : m.1.text = name) : IsField name (Decodes decode) default (ms ++ [m]) r ↔
      (∃ r', IsField name (Decodes decode) default ms r') ∧ decode m.2 = some r := by
  constructor
  · intro hf
    refine ⟨isField_exists fun x hx => hf.1 x (by simp [hx]), ?_⟩
    have := hf.2
    rwa [lastMember_snoc, if_pos h] at this
  · rintro ⟨⟨r', h1, _⟩, h2⟩
    refine ⟨fun x hx hn => ?_, by rw [lastMember_snoc, if_pos h]; exact h2⟩
    rcases List.mem_append.1 hx with hx' | hx'
    · exact h1 x hx' hn
    · simp only [List.mem_singleton] at hx'; subst hx'; exact ⟨r, h2⟩

theorem isField_unique {ms : List (RawStr × Json RawStr F)} {r s : α} (h : IsField name (Decodes decode) default ms r)
    (h' : IsField name (Decodes decode) default ms s) : r = s := by
  obtain ⟨_, h⟩ := h
  obtain ⟨_, h'⟩ := h'
  cases hl : lastMember name ms with
  | none => rw [hl] at h h'; rw [h, h']
  | some v => rw [hl] at h h'; exact Option.some.inj (h.symm.trans h')
end

theorem onlyNames_snoc {names : List Str} {ms : List (RawStr × Json RawStr F)} {m : RawStr × Json RawStr F} :
    OnlyNames names (ms ++ [m]) ↔ OnlyNames names ms ∧ m.1.escaped = false ∧ m.1.text ∈ names := by
  unfold OnlyNames
  constructor
  · intro h; exact ⟨fun x hx => h x (by simp [hx]), h m (by simp)⟩
  · rintro ⟨h1, h2⟩ x hx
    rcases List.mem_append.1 hx with hx' | hx'
    · exact h1 x hx'
    · simp only [List.mem_singleton] at hx'; subst hx'; exact h2

theorem foldlM_snoc {σ μ : Type} (f : σ → μ → Option σ) (s : σ) (ms : List μ) (m : μ) :
    (ms ++ [m]).foldlM f s = (ms.foldlM f s).bind fun s' => f s' m := by
  rw [List.foldlM_append]
  simp only [List.foldlM_cons, List.foldlM_nil, Option.bind_eq_bind]
  congr 1
  funext s'
  cases f s' m <;> rfl

/-- Induction on the last member. -/
theorem snoc_induction {μ : Type} {P : List μ → Prop} (nil : P []) (snoc : ∀ l a, P l → P (l ++ [a])) : ∀ l, P l := by
  intro l
  rw [← List.reverse_reverse l]
  induction l.reverse with
  | nil => exact nil
  | cons a l ih => rw [List.reverse_cons]; exact snoc _ _ ih

/-- A chain of four tests on distinct names. -/
theorem chain_iff {α κ : Type} [DecidableEq κ] {k a b c d : κ} (hab : a ≠ b) (hac : a ≠ c) (had : a ≠ d) (hbc : b ≠ c)
    (hbd : b ≠ d) (hcd : c ≠ d) {X Y Z W : Option α} {g : α} :
    (if k = a then X else if k = b then Y else if k = c then Z else if k = d then W else none) = some g ↔
      (k = a ∧ X = some g) ∨ (k = b ∧ Y = some g) ∨ (k = c ∧ Z = some g) ∨ (k = d ∧ W = some g) := by
  by_cases h1 : k = a
  · subst h1; simp [hab, hac, had]
  by_cases h2 : k = b
  · subst h2; simp [h1, hbc, hbd]
  by_cases h3 : k = c
  · subst h3; simp [h1, h2, hcd]
  by_cases h4 : k = d
  · subst h4; simp [h1, h2, h3]
  · simp [h1, h2, h3, h4]

theorem bind_some_iff {α β : Type} {o : Option α} {f : α → β} {g : β} :
    (o.bind fun v => some (f v)) = some g ↔ ∃ v, o = some v ∧ g = f v := by
  cases o <;> simp [eq_comm]

namespace Tokenizer

/-- The names of the fields of a document. -/
def names : List Str := ["version".toList, "special_tokens".toList, "processors".toList, "vocab".toList]

theorem field_cases (f : Fields F) (m : RawStr × Json RawStr F) (g : Fields F) : field f m = some g ↔
    m.1.escaped = false ∧
    ((m.1.text = "version".toList ∧ ∃ v, asString m.2 = some v ∧ g = { f with version := some v }) ∨
     (m.1.text = "special_tokens".toList ∧ ∃ v, asVec asBorrowed m.2 = some v ∧ g = { f with specialTokens := v }) ∨
     (m.1.text = "vocab".toList ∧ ∃ v, asVec ScoredToken.ofJson m.2 = some v ∧ g = { f with vocab := v }) ∨
     (m.1.text = "processors".toList ∧ ∃ v, asVec Processor.ofJson m.2 = some v ∧ g = { f with processors := v })) := by
  obtain ⟨⟨key, esc⟩, j⟩ := m
  unfold field
  cases esc with
  | true => simp only [asKey, if_true, Option.bind_eq_bind, Option.bind_none, reduceCtorEq, false_and]
  | false =>
    simp only [asKey, Bool.false_eq_true, if_false, Option.bind_eq_bind, Option.bind_some, true_and]
    have n12 : "version".toList ≠ "special_tokens".toList := by decide
    have n13 : "version".toList ≠ "vocab".toList := by decide
    have n14 : "version".toList ≠ "processors".toList := by decide
    have n23 : "special_tokens".toList ≠ "vocab".toList := by decide
    have n24 : "special_tokens".toList ≠ "processors".toList := by decide
    have n34 : "vocab".toList ≠ "processors".toList := by decide
    rw [chain_iff n12 n13 n14 n23 n24 n34, bind_some_iff, bind_some_iff, bind_some_iff, bind_some_iff]

theorem fields_iff : ∀ (ms : List (RawStr × Json RawStr F)) (f : Fields F), ms.foldlM field {} = some f ↔
    OnlyNames names ms ∧
    IsField "version".toList (Decodes (fun j => (asString j).map some)) none ms f.version ∧
    IsField "special_tokens".toList (Decodes (asVec asBorrowed)) [] ms f.specialTokens ∧
    IsField "vocab".toList (Decodes (asVec ScoredToken.ofJson)) [] ms f.vocab ∧
    IsField "processors".toList (Decodes (asVec Processor.ofJson)) [] ms f.processors := by
  apply snoc_induction
  · intro f
    simp only [List.foldlM_nil, isField_nil]
    show some {} = some f ↔ _
    obtain ⟨a, b, c, d⟩ := f
    simp only [Option.some.injEq, Fields.mk.injEq]
    constructor
    · rintro ⟨rfl, rfl, rfl, rfl⟩
      exact ⟨by intro m hm; simp at hm, rfl, rfl, rfl, rfl⟩
    · rintro ⟨_, rfl, rfl, rfl, rfl⟩
      exact ⟨rfl, rfl, rfl, rfl⟩
  · intro ms m ih g
    have n12 : "version".toList ≠ "special_tokens".toList := by decide
    have n13 : "version".toList ≠ "vocab".toList := by decide
    have n14 : "version".toList ≠ "processors".toList := by decide
    have n23 : "special_tokens".toList ≠ "vocab".toList := by decide
    have n24 : "special_tokens".toList ≠ "processors".toList := by decide
    have n34 : "vocab".toList ≠ "processors".toList := by decide
    rw [foldlM_snoc, Option.bind_eq_some_iff, onlyNames_snoc]
    constructor
    · rintro ⟨f, hf, hg⟩
      obtain ⟨ho, h1, h2, h3, h4⟩ := (ih f).1 hf
      obtain ⟨he, hc⟩ := (field_cases f m g).1 hg
      rcases hc with ⟨hn, v, hv, rfl⟩ | ⟨hn, v, hv, rfl⟩ | ⟨hn, v, hv, rfl⟩ | ⟨hn, v, hv, rfl⟩
      · refine ⟨⟨ho, he, by rw [hn]; simp [names]⟩, ?_, ?_, ?_, ?_⟩
        · exact (isField_same hn).2 ⟨⟨_, h1⟩, by rw [hv]; rfl⟩
        · exact (isField_other (by rw [hn]; exact n12)).2 h2
        · exact (isField_other (by rw [hn]; exact n13)).2 h3
        · exact (isField_other (by rw [hn]; exact n14)).2 h4
      · refine ⟨⟨ho, he, by rw [hn]; simp [names]⟩, ?_, ?_, ?_, ?_⟩
        · exact (isField_other (by rw [hn]; exact n12.symm)).2 h1
        · exact (isField_same hn).2 ⟨⟨_, h2⟩, hv⟩
        · exact (isField_other (by rw [hn]; exact n23)).2 h3
        · exact (isField_other (by rw [hn]; exact n24)).2 h4
      · refine ⟨⟨ho, he, by rw [hn]; simp [names]⟩, ?_, ?_, ?_, ?_⟩
        · exact (isField_other (by rw [hn]; exact n13.symm)).2 h1
        · exact (isField_other (by rw [hn]; exact n23.symm)).2 h2
        · exact (isField_same hn).2 ⟨⟨_, h3⟩, hv⟩
        · exact (isField_other (by rw [hn]; exact n34)).2 h4
      · refine ⟨⟨ho, he, by rw [hn]; simp [names]⟩, ?_, ?_, ?_, ?_⟩
        · exact (isField_other (by rw [hn]; exact n14.symm)).2 h1
        · exact (isField_other (by rw [hn]; exact n24.symm)).2 h2
        · exact (isField_other (by rw [hn]; exact n34.symm)).2 h3
        · exact (isField_same hn).2 ⟨⟨_, h4⟩, hv⟩
    · rintro ⟨⟨ho, he, hn⟩, h1, h2, h3, h4⟩
      simp only [names, List.mem_cons, List.not_mem_nil, or_false] at hn
      rcases hn with hn | hn | hn | hn
      · obtain ⟨⟨r, hr⟩, hv⟩ := (isField_same hn).1 h1
        have h2' := (isField_other (by rw [hn]; exact n12)).1 h2
        have h3' := (isField_other (by rw [hn]; exact n13)).1 h3
        have h4' := (isField_other (by rw [hn]; exact n14)).1 h4
        refine ⟨⟨r, g.specialTokens, g.vocab, g.processors⟩, (ih _).2 ⟨ho, hr, h2', h3', h4'⟩, ?_⟩
        obtain ⟨v, hv, hv'⟩ := Option.map_eq_some_iff.1 hv
        exact (field_cases _ m g).2 ⟨he, Or.inl ⟨hn, v, hv, by rw [hv']⟩⟩
      · obtain ⟨⟨r, hr⟩, hv⟩ := (isField_same hn).1 h2
        have h1' := (isField_other (by rw [hn]; exact n12.symm)).1 h1
        have h3' := (isField_other (by rw [hn]; exact n23)).1 h3
        have h4' := (isField_other (by rw [hn]; exact n24)).1 h4
        exact ⟨⟨g.version, r, g.vocab, g.processors⟩, (ih _).2 ⟨ho, h1', hr, h3', h4'⟩,
          (field_cases _ m g).2 ⟨he, Or.inr (Or.inl ⟨hn, _, hv, rfl⟩)⟩⟩
      · obtain ⟨⟨r, hr⟩, hv⟩ := (isField_same hn).1 h4
        have h1' := (isField_other (by rw [hn]; exact n14.symm)).1 h1
        have h2' := (isField_other (by rw [hn]; exact n24.symm)).1 h2
        have h3' := (isField_other (by rw [hn]; exact n34.symm)).1 h3
        exact ⟨⟨g.version, g.specialTokens, g.vocab, r⟩, (ih _).2 ⟨ho, h1', h2', h3', hr⟩,
          (field_cases _ m g).2 ⟨he, Or.inr (Or.inr (Or.inr ⟨hn, _, hv, rfl⟩))⟩⟩
      · obtain ⟨⟨r, hr⟩, hv⟩ := (isField_same hn).1 h3
        have h1' := (isField_other (by rw [hn]; exact n13.symm)).1 h1
        have h2' := (isField_other (by rw [hn]; exact n23.symm)).1 h2
        have h4' := (isField_other (by rw [hn]; exact n34)).1 h4
        exact ⟨⟨g.version, g.specialTokens, r, g.processors⟩, (ih _).2 ⟨ho, h1', h2', hr, h4'⟩,
          (field_cases _ m g).2 ⟨he, Or.inr (Or.inr (Or.inl ⟨hn, _, hv, rfl⟩))⟩⟩

end Tokenizer

namespace ScoredToken

/-- The names of the fields of a token. -/
def names : List Str := ["value".toList, "score".toList, "encoded".toList, "keep".toList]

theorem field_cases (f : Fields F) (m : RawStr × Json RawStr F) (g : Fields F) : field f m = some g ↔
    m.1.escaped = false ∧
    ((m.1.text = "value".toList ∧ ∃ v, asOptString m.2 = some v ∧ g = { f with value := v }) ∨
     (m.1.text = "score".toList ∧ ∃ v, asOptNum m.2 = some v ∧ g = { f with score := v }) ∨
     (m.1.text = "encoded".toList ∧ ∃ v, asBool m.2 = some v ∧ g = { f with encoded := v }) ∨
     (m.1.text = "keep".toList ∧ ∃ v, asBool m.2 = some v ∧ g = { f with keep := v })) := by
  obtain ⟨⟨key, esc⟩, j⟩ := m
  unfold field
  cases esc with
  | true => simp only [asKey, if_true, Option.bind_eq_bind, Option.bind_none, reduceCtorEq, false_and]
  | false =>
    simp only [asKey, Bool.false_eq_true, if_false, Option.bind_eq_bind, Option.bind_some, true_and]
    have n12 : "value".toList ≠ "score".toList := by decide
    have n13 : "value".toList ≠ "encoded".toList := by decide
    have n14 : "value".toList ≠ "keep".toList := by decide
    have n23 : "score".toList ≠ "encoded".toList := by decide
    have n24 : "score".toList ≠ "keep".toList := by decide
    have n34 : "encoded".toList ≠ "keep".toList := by decide
    rw [chain_iff n12 n13 n14 n23 n24 n34, bind_some_iff, bind_some_iff, bind_some_iff, bind_some_iff]

theorem fields_iff : ∀ (ms : List (RawStr × Json RawStr F)) (f : Fields F), ms.foldlM field {} = some f ↔
    OnlyNames names ms ∧
    IsField "value".toList (Decodes asOptString) none ms f.value ∧
    IsField "score".toList (Decodes asOptNum) none ms f.score ∧
    IsField "encoded".toList (Decodes asBool) false ms f.encoded ∧
    IsField "keep".toList (Decodes asBool) false ms f.keep := by
  apply snoc_induction
  · intro f
    simp only [List.foldlM_nil, isField_nil]
    show some {} = some f ↔ _
    obtain ⟨a, b, c, d⟩ := f
    simp only [Option.some.injEq, Fields.mk.injEq]
    constructor
    · rintro ⟨rfl, rfl, rfl, rfl⟩
      exact ⟨by intro m hm; simp at hm, rfl, rfl, rfl, rfl⟩
    · rintro ⟨_, rfl, rfl, rfl, rfl⟩
      exact ⟨rfl, rfl, rfl, rfl⟩
  · intro ms m ih g
    have n12 : "value".toList ≠ "score".toList := by decide
    have n13 : "value".toList ≠ "encoded".toList := by decide
    have n14 : "value".toList ≠ "keep".toList := by decide
    have n23 : "score".toList ≠ "encoded".toList := by decide
    have n24 : "score".toList ≠ "keep".toList := by decide
    have n34 : "encoded".toList ≠ "keep".toList := by decide
    rw [foldlM_snoc, Option.bind_eq_some_iff, onlyNames_snoc]
    constructor
    · rintro ⟨f, hf, hg⟩
      obtain ⟨ho, h1, h2, h3, h4⟩ := (ih f).1 hf
      obtain ⟨he, hc⟩ := (field_cases f m g).1 hg
      rcases hc with ⟨hn, v, hv, rfl⟩ | ⟨hn, v, hv, rfl⟩ | ⟨hn, v, hv, rfl⟩ | ⟨hn, v, hv, rfl⟩
      · refine ⟨⟨ho, he, by rw [hn]; simp [names]⟩, ?_, ?_, ?_, ?_⟩
        · exact (isField_same hn).2 ⟨⟨_, h1⟩, hv⟩
        · exact (isField_other (by rw [hn]; exact n12)).2 h2
        · exact (isField_other (by rw [hn]; exact n13)).2 h3
        · exact (isField_other (by rw [hn]; exact n14)).2 h4
      · refine ⟨⟨ho, he, by rw [hn]; simp [names]⟩, ?_, ?_, ?_, ?_⟩
        · exact (isField_other (by rw [hn]; exact n12.symm)).2 h1
        · exact (isField_same hn).2 ⟨⟨_, h2⟩, hv⟩
        · exact (isField_other (by rw [hn]; exact n23)).2 h3
        · exact (isField_other (by rw [hn]; exact n24)).2 h4
      · refine ⟨⟨ho, he, by rw [hn]; simp [names]⟩, ?_, ?_, ?_, ?_⟩
        · exact (isField_other (by rw [hn]; exact n13.symm)).2 h1
        · exact (isField_other (by rw [hn]; exact n23.symm)).2 h2
        · exact (isField_same hn).2 ⟨⟨_, h3⟩, hv⟩
        · exact (isField_other (by rw [hn]; exact n34)).2 h4
      · refine ⟨⟨ho, he, by rw [hn]; simp [names]⟩, ?_, ?_, ?_, ?_⟩
        · exact (isField_other (by rw [hn]; exact n14.symm)).2 h1
        · exact (isField_other (by rw [hn]; exact n24.symm)).2 h2
        · exact (isField_other (by rw [hn]; exact n34.symm)).2 h3
        · exact (isField_same hn).2 ⟨⟨_, h4⟩, hv⟩
    · rintro ⟨⟨ho, he, hn⟩, h1, h2, h3, h4⟩
      simp only [names, List.mem_cons, List.not_mem_nil, or_false] at hn
      rcases hn with hn | hn | hn | hn
      · obtain ⟨⟨r, hr⟩, hv⟩ := (isField_same hn).1 h1
        have h2' := (isField_other (by rw [hn]; exact n12)).1 h2
        have h3' := (isField_other (by rw [hn]; exact n13)).1 h3
        have h4' := (isField_other (by rw [hn]; exact n14)).1 h4
        exact ⟨⟨r, g.score, g.encoded, g.keep⟩, (ih _).2 ⟨ho, hr, h2', h3', h4'⟩,
          (field_cases _ m g).2 ⟨he, Or.inl ⟨hn, _, hv, rfl⟩⟩⟩
      · obtain ⟨⟨r, hr⟩, hv⟩ := (isField_same hn).1 h2
        have h1' := (isField_other (by rw [hn]; exact n12.symm)).1 h1
        have h3' := (isField_other (by rw [hn]; exact n23)).1 h3
        have h4' := (isField_other (by rw [hn]; exact n24)).1 h4
        exact ⟨⟨g.value, r, g.encoded, g.keep⟩, (ih _).2 ⟨ho, h1', hr, h3', h4'⟩,
          (field_cases _ m g).2 ⟨he, Or.inr (Or.inl ⟨hn, _, hv, rfl⟩)⟩⟩
      · obtain ⟨⟨r, hr⟩, hv⟩ := (isField_same hn).1 h3
        have h1' := (isField_other (by rw [hn]; exact n13.symm)).1 h1
        have h2' := (isField_other (by rw [hn]; exact n23.symm)).1 h2
        have h4' := (isField_other (by rw [hn]; exact n34)).1 h4
        exact ⟨⟨g.value, g.score, r, g.keep⟩, (ih _).2 ⟨ho, h1', h2', hr, h4'⟩,
          (field_cases _ m g).2 ⟨he, Or.inr (Or.inr (Or.inl ⟨hn, _, hv, rfl⟩))⟩⟩
      · obtain ⟨⟨r, hr⟩, hv⟩ := (isField_same hn).1 h4
        have h1' := (isField_other (by rw [hn]; exact n14.symm)).1 h1
        have h2' := (isField_other (by rw [hn]; exact n24.symm)).1 h2
        have h3' := (isField_other (by rw [hn]; exact n34.symm)).1 h3
        exact ⟨⟨g.value, g.score, g.encoded, r⟩, (ih _).2 ⟨ho, h1', h2', h3', hr⟩,
          (field_cases _ m g).2 ⟨he, Or.inr (Or.inr (Or.inr ⟨hn, _, hv, rfl⟩))⟩⟩

end ScoredToken

namespace Processor

theorem crlf_iff (j : Json RawStr F) : crlfOfJson j = some () ↔ ∃ ms, j = .obj ms ∧
    ∀ m ∈ ms, m.1.escaped = false ∧ (m.1.text = "type".toList → ∃ s, m.2 = .str s ∧ s.text = "crlf".toList) := by
  have key : ∀ ms : List (RawStr × Json RawStr F), ms.foldlM crlfField () = some () ↔
      ∀ m ∈ ms, m.1.escaped = false ∧ (m.1.text = "type".toList → ∃ s, m.2 = .str s ∧ s.text = "crlf".toList) := by
    intro ms
    induction ms with
    | nil => simp
    | cons m ms ih =>
      obtain ⟨⟨key, esc⟩, v⟩ := m
      have hstep : crlfField () ((⟨key, esc⟩ : RawStr), v) = some () ↔
          esc = false ∧ (key = "type".toList → ∃ s, v = .str s ∧ s.text = "crlf".toList) := by
        unfold crlfField
        cases esc with
        | true => simp only [asKey, if_true, Option.bind_eq_bind, Option.bind_none, reduceCtorEq, false_and]
        | false =>
          simp only [asKey, Bool.false_eq_true, if_false, Option.bind_eq_bind, Option.bind_some, true_and]
          by_cases h1 : key = "type".toList
          · rw [if_pos h1]
            simp only [h1, true_implies]
            cases v with
            | str s =>
              simp only [asString, Option.bind_some]
              by_cases h2 : s.text = "crlf".toList
              · rw [if_pos h2]; exact ⟨fun _ => ⟨s, rfl, h2⟩, fun _ => rfl⟩
              · rw [if_neg h2]
                constructor
                · intro h; cases h
                · rintro ⟨s', hs, h3⟩; injection hs with hs; subst hs; exact absurd h3 h2
            | _ => simp [asString]
          · rw [if_neg h1]
            exact ⟨fun _ h => absurd h h1, fun _ => rfl⟩
      rw [List.foldlM_cons]
      simp only [List.mem_cons, forall_eq_or_imp]
      rw [← ih, ← hstep]
      cases h : crlfField () ((⟨key, esc⟩ : RawStr), v) with
      | none => simp
      | some u => simp
  cases j with
  | obj ms =>
    simp only [crlfOfJson, key, Json.obj.injEq]
    constructor
    · intro h; exact ⟨ms, rfl, h⟩
    · rintro ⟨ms', rfl, h⟩; exact h
  | _ => simp [crlfOfJson]

theorem unicode_iff (j : Json RawStr F) (form : UnicodeForm) : unicodeOfJson j = some form ↔ ∃ ms, j = .obj ms ∧
    (∀ m ∈ ms, m.1.escaped = false) ∧ IsField "form".toList (Decodes (fun j => (asString j).map some)) none ms (some form.name) := by
  have key : ∀ (ms : List (RawStr × Json RawStr F)) (r : Option Str), ms.foldlM unicodeField none = some r ↔
      (∀ m ∈ ms, m.1.escaped = false) ∧ IsField "form".toList (Decodes (fun j => (asString j).map some)) none ms r := by
    apply snoc_induction
    · intro r
      rw [isField_nil]
      show some none = some r ↔ _
      simp only [Option.some.injEq, List.not_mem_nil, false_implies, implies_true, true_and]
      exact ⟨Eq.symm, Eq.symm⟩
    · intro ms m ih r
      have hesc : (∀ x ∈ ms ++ [m], x.1.escaped = false) ↔ (∀ x ∈ ms, x.1.escaped = false) ∧ m.1.escaped = false := by
        constructor
        · intro h; exact ⟨fun x hx => h x (by simp [hx]), h m (by simp)⟩
        · rintro ⟨h1, h2⟩ x hx
          rcases List.mem_append.1 hx with hx' | hx'
          · exact h1 x hx'
          · simp only [List.mem_singleton] at hx'; subst hx'; exact h2
      rw [foldlM_snoc, Option.bind_eq_some_iff, hesc]
      have hstep : ∀ q, unicodeField q m = some r ↔ m.1.escaped = false ∧
          ((m.1.text = "form".toList ∧ (asString m.2).map some = some r) ∨ (m.1.text ≠ "form".toList ∧ q = r)) := by
        intro q
        obtain ⟨⟨k, esc⟩, v⟩ := m
        unfold unicodeField
        cases esc with
        | true => simp only [asKey, if_true, Option.bind_eq_bind, Option.bind_none, reduceCtorEq, false_and]
        | false =>
          simp only [asKey, Bool.false_eq_true, if_false, Option.bind_eq_bind, Option.bind_some, true_and]
          by_cases h1 : k = "form".toList
          · rw [if_pos h1]
            simp only [h1, true_and, ne_eq, not_true, false_and, or_false]
            cases asString v <;> simp
          · rw [if_neg h1, Option.some.injEq]
            exact ⟨fun h => Or.inr ⟨h1, h⟩, fun h => h.elim (fun h => absurd h.1 h1) (·.2)⟩
      constructor
      · rintro ⟨q, hq, hr⟩
        obtain ⟨h1, h2⟩ := (ih q).1 hq
        obtain ⟨h3, h4⟩ := (hstep q).1 hr
        refine ⟨⟨h1, h3⟩, ?_⟩
        rcases h4 with ⟨hn, hv⟩ | ⟨hn, rfl⟩
        · exact (isField_same hn).2 ⟨⟨q, h2⟩, hv⟩
        · exact (isField_other hn).2 h2
      · rintro ⟨⟨h1, h3⟩, h2⟩
        by_cases hn : m.1.text = "form".toList
        · obtain ⟨⟨q, hq⟩, hv⟩ := (isField_same hn).1 h2
          exact ⟨q, (ih q).2 ⟨h1, hq⟩, (hstep q).2 ⟨h3, Or.inl ⟨hn, hv⟩⟩⟩
        · exact ⟨r, (ih r).2 ⟨h1, (isField_other hn).1 h2⟩, (hstep r).2 ⟨h3, Or.inr ⟨hn, rfl⟩⟩⟩
  have hname : ∀ s, UnicodeForm.ofName s = some form ↔ s = form.name := by
    intro s
    unfold UnicodeForm.ofName
    by_cases h1 : s = "nfc".toList
    · rw [if_pos h1, h1]; cases form <;> simp [UnicodeForm.name]
    rw [if_neg h1]
    by_cases h2 : s = "nfd".toList
    · rw [if_pos h2, h2]; cases form <;> simp [UnicodeForm.name]
    rw [if_neg h2]
    by_cases h3 : s = "nfkc".toList
    · rw [if_pos h3, h3]; cases form <;> simp [UnicodeForm.name]
    rw [if_neg h3]
    by_cases h4 : s = "nfkd".toList
    · rw [if_pos h4, h4]; cases form <;> simp [UnicodeForm.name]
    rw [if_neg h4]
    cases form <;> simp only [UnicodeForm.name, h1, h2, h3, h4, reduceCtorEq]
  cases j with
  | obj ms =>
    simp only [unicodeOfJson, Json.obj.injEq, Option.bind_eq_bind, Option.bind_eq_some_iff]
    constructor
    · rintro ⟨r, hr, s, hs, hf⟩
      have : r = some form.name := by rw [hs, (hname s).1 hf]
      exact ⟨ms, rfl, (key ms _).1 (by rw [← this]; exact hr)⟩
    · rintro ⟨ms', rfl, h⟩
      exact ⟨some form.name, (key ms _).2 h, form.name, rfl, (hname _).2 rfl⟩
  | _ => simp [unicodeOfJson]

end Processor

/-! ### In terms of the specification -/

theorem isField_congr {α : Type} {name : Str} {R S : Json RawStr F → α → Prop} {default : α}
    {ms : List (RawStr × Json RawStr F)} {r : α} (h : ∀ j x, R j x ↔ S j x) :
    IsField name R default ms r ↔ IsField name S default ms r := by
  have : R = S := by funext j x; exact propext (h j x)
  rw [this]

theorem isField_required {α : Type} {name : Str} {decode : Json RawStr F → Option α} {R : Json RawStr F → α → Prop}
    {ms : List (RawStr × Json RawStr F)} {x : α} (h : ∀ j x, decode j = some x ↔ R j x) :
    IsField name (Decodes fun j => (decode j).map some) none ms (some x) ↔ IsRequired name R ms x := by
  unfold IsField IsRequired Decodes
  have hex : ∀ j, (∃ y, (decode j).map some = some y) ↔ ∃ y, R j y := by
    intro j
    simp only [← h]
    cases decode j <;> simp
  simp only [hex]
  cases lastMember name ms with
  | none => simp
  | some v =>
    simp only [Option.some.injEq, exists_eq_left', ← h]
    cases decode v <;> simp

theorem asString_iff (j : Json RawStr F) (s : Str) : asString j = some s ↔ IsText j s := by
  cases j <;> simp [asString, IsText]

theorem asBorrowed_iff (j : Json RawStr F) (s : Str) : asBorrowed j = some s ↔ IsPlainText j s := by
  cases j <;> simp [asBorrowed, IsPlainText, asKey_iff]

theorem asOptString_iff (j : Json RawStr F) (o : Option Str) : asOptString j = some o ↔ IsOptional IsText j o := by
  cases o <;> cases j <;> simp [asOptString, IsOptional, IsText]

theorem asOptNum_iff (j : Json RawStr F) (o : Option F) : asOptNum j = some o ↔ IsOptional IsNumber j o := by
  cases o <;> cases j <;> simp [asOptNum, IsOptional, IsNumber]

theorem asBool_iff (j : Json RawStr F) (b : Bool) : asBool j = some b ↔ IsBool j b := by
  cases j <;> simp [asBool, IsBool]

theorem mapM_iff {α β : Type} {f : α → Option β} {R : α → β → Prop} (h : ∀ a b, f a = some b ↔ R a b) :
    ∀ (l : List α) (r : List β), l.mapM f = some r ↔ List.Forall₂ R l r
  | [], r => by
    simp only [List.mapM_nil]
    constructor
    · intro h; injection h with h; subst h; exact .nil
    · intro h; cases h; rfl
  | a :: l, r => by
    rw [List.mapM_cons]
    simp only [Option.bind_eq_bind, Option.bind_eq_some_iff]
    constructor
    · rintro ⟨b, hb, bs, hbs, hr⟩
      injection hr with hr
      subst hr
      exact .cons ((h a b).1 hb) ((mapM_iff h l bs).1 hbs)
    · intro hr
      cases hr with
      | cons hab hl => exact ⟨_, (h _ _).2 hab, _, (mapM_iff h l _).2 hl, rfl⟩

theorem asVec_iff {α : Type} {item : Json RawStr F → Option α} {R : Json RawStr F → α → Prop}
    (h : ∀ j x, item j = some x ↔ R j x) (j : Json RawStr F) (l : List α) : asVec item j = some l ↔ IsListOf R j l := by
  cases j with
  | arr xs =>
    simp only [asVec, IsListOf, Json.arr.injEq, exists_eq_left', mapM_iff h]
  | _ => simp [asVec, IsListOf]

theorem ScoredToken.ofJson_iff (j : Json RawStr F) (t : ScoredToken F) : ScoredToken.ofJson j = some t ↔ IsToken j t := by
  cases j with
  | obj ms =>
    simp only [ScoredToken.ofJson, IsToken, Json.obj.injEq, exists_and_left, exists_eq_left', Option.bind_eq_some_iff]
    constructor
    · rintro ⟨f, hf, ht⟩
      obtain ⟨h0, h1, h2, h3, h4⟩ := (ScoredToken.fields_iff ms f).1 hf
      unfold ScoredToken.ofFields at ht
      simp only [Option.bind_eq_bind] at ht
      obtain ⟨text, hx, ht⟩ := Option.bind_eq_some_iff.1 ht
      obtain ⟨bytes, hb, score, hs, rfl⟩ : ∃ bytes,
          (if f.encoded = true then Base64.decode text else some (enc text)) = some bytes ∧
          ∃ score, f.score = some score ∧ { value := bytes, score := score, keep := f.keep } = t := by
        by_cases he : f.encoded = true
        · rw [if_pos he] at ht ⊢
          simpa only [Option.bind_eq_some_iff, Option.some.injEq] using ht
        · rw [if_neg he] at ht ⊢
          simpa only [Option.bind_eq_some_iff, Option.some.injEq] using ht
      refine ⟨h0, text, ?_, ?_, f.encoded, ?_, ?_, ?_⟩
      · rw [← hx]; exact (isField_congr asOptString_iff).1 h1
      · rw [← hs]; exact (isField_congr asOptNum_iff).1 h2
      · exact (isField_congr asBool_iff).1 h3
      · exact (isField_congr asBool_iff).1 h4
      · by_cases he : f.encoded = true
        · rw [if_pos he] at hb ⊢
          rw [Base64.encode_decode text bytes hb]
          exact Base64.isBase64_encode bytes
        · rw [if_neg he] at hb ⊢
          injection hb with hb
          exact hb.symm
    · rintro ⟨h0, text, h1, h2, e, h3, h4, h5⟩
      refine ⟨⟨some text, some t.score, e, t.keep⟩, (ScoredToken.fields_iff ms _).2 ⟨h0, ?_, ?_, ?_, ?_⟩, ?_⟩
      · exact (isField_congr asOptString_iff).2 h1
      · exact (isField_congr asOptNum_iff).2 h2
      · exact (isField_congr asBool_iff).2 h3
      · exact (isField_congr asBool_iff).2 h4
      · unfold ScoredToken.ofFields
        simp only [Option.bind_eq_bind, Option.bind_some]
        by_cases he : e = true
        · rw [if_pos he] at h5 ⊢
          rw [(Base64.isBase64_unique h5 (Base64.isBase64_encode t.value)).1 rfl, Base64.decode_encode]
          rfl
        · rw [if_neg he] at h5 ⊢
          rw [← h5]
  | _ => simp [ScoredToken.ofJson, IsToken]

theorem formName_eq (form : UnicodeForm) : form.name = formName form := by cases form <;> rfl

theorem Processor.ofJson_iff (j : Json RawStr F) (p : Processor) : Processor.ofJson j = some p ↔ IsProcessor j p := by
  have hc : Processor.crlfOfJson j = some () ↔ IsCrlf j := Processor.crlf_iff j
  have hu : ∀ form, Processor.unicodeOfJson j = some form ↔ IsUnicode j form := by
    intro form
    rw [Processor.unicode_iff, IsUnicode, formName_eq]
    simp only [isField_required asString_iff]
  unfold Processor.ofJson
  cases h : Processor.crlfOfJson j with
  | some u =>
    have : IsCrlf j := hc.1 h
    cases p <;> simp [IsProcessor, this]
  | none =>
    have : ¬ IsCrlf j := by rw [← hc, h]; simp
    cases p with
    | crlf => simp [IsProcessor, this]
    | unicode form => simp [IsProcessor, this, ← hu]

theorem Tokenizer.ofJson_iff (j : Json RawStr F) (t : Tokenizer F) : Tokenizer.ofJson j = some t ↔
    ∃ vocab ps specials, IsDocument j vocab ps specials ∧ t = Tokenizer.new (Model.from_ vocab) ps specials := by
  cases j with
  | obj ms =>
    simp only [Tokenizer.ofJson, IsDocument, Json.obj.injEq, exists_eq_left', Option.bind_eq_some_iff]
    constructor
    · rintro ⟨f, hf, ht⟩
      obtain ⟨h0, h1, h2, h3, h4⟩ := (Tokenizer.fields_iff ms f).1 hf
      unfold Tokenizer.ofFields at ht
      simp only [Option.bind_eq_bind, Option.bind_eq_some_iff] at ht
      obtain ⟨v, hv, ht⟩ := ht
      by_cases hver : v = Tokenizer.serializationVersion
      · rw [if_neg (by simp [hver])] at ht
        injection ht with ht
        refine ⟨f.vocab, f.processors, f.specialTokens, ⟨h0, ?_, ?_, ?_, ?_⟩, ht.symm⟩
        · rw [hv, hver] at h1; exact (isField_required asString_iff).1 h1
        · exact (isField_congr (asVec_iff asBorrowed_iff)).1 h2
        · exact (isField_congr (asVec_iff Processor.ofJson_iff)).1 h4
        · exact (isField_congr (asVec_iff ScoredToken.ofJson_iff)).1 h3
      · rw [if_pos hver] at ht; cases ht
    · rintro ⟨vocab, ps, specials, ⟨h0, h1, h2, h4, h3⟩, rfl⟩
      refine ⟨⟨some "2.0".toList, specials, vocab, ps⟩, (Tokenizer.fields_iff ms _).2 ⟨h0, ?_, ?_, ?_, ?_⟩, rfl⟩
      · exact (isField_required asString_iff).2 h1
      · exact (isField_congr (asVec_iff asBorrowed_iff)).2 h2
      · exact (isField_congr (asVec_iff ScoredToken.ofJson_iff)).2 h3
      · exact (isField_congr (asVec_iff Processor.ofJson_iff)).2 h4
  | _ => simp [Tokenizer.ofJson, IsDocument]

/-- With distinct names the last member of a given name does not depend on the order. -/
theorem lastMember_perm {name : Str} {ms ms' : List (RawStr × Json RawStr F)} (hp : ms.Perm ms')
    (hn : (ms.map (·.1.text)).Nodup) : lastMember name ms = lastMember name ms' := by
  have hn' : (ms'.map (·.1.text)).Nodup := (hp.map _).nodup_iff.1 hn
  have huniq : ∀ a ∈ ms, ∀ b ∈ ms, a.1.text = b.1.text → a = b := by
    clear hp hn'
    induction ms with
    | nil => intro a ha; simp at ha
    | cons m ms ih =>
      rw [List.map_cons, List.nodup_cons] at hn
      intro a ha b hb hab
      rcases List.mem_cons.1 ha with rfl | ha'
      · rcases List.mem_cons.1 hb with rfl | hb'
        · rfl
        · exact absurd (List.mem_map.2 ⟨b, hb', hab.symm⟩) hn.1
      · rcases List.mem_cons.1 hb with rfl | hb'
        · exact absurd (List.mem_map.2 ⟨a, ha', hab⟩) hn.1
        · exact ih hn.2 a ha' b hb' hab
  cases h : lastMember name ms with
  | none =>
    cases h' : lastMember name ms' with
    | none => rfl
    | some v =>
      obtain ⟨m, hm, hmn, _⟩ := lastMember_mem h'
      exact absurd hmn (lastMember_none h m (hp.mem_iff.2 hm))
  | some v =>
    obtain ⟨m, hm, hmn, hv⟩ := lastMember_mem h
    cases h' : lastMember name ms' with
    | none => exact absurd hmn (lastMember_none h' m (hp.mem_iff.1 hm))
    | some w =>
      obtain ⟨m', hm', hmn', hw⟩ := lastMember_mem h'
      rw [← hv, ← hw, huniq m hm m' (hp.mem_iff.2 hm') (by rw [hmn, hmn'])]

end Tokengeex

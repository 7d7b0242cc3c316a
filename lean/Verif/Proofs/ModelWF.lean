import Verif.Model.Model
import Verif.Spec.Segmentation
import Verif.Proofs.Trie
import Verif.Proofs.Monad
/-
Building and growing a model; its lookup tables agree with its vocabulary.
-/
namespace Tokengeex
open Spec

namespace Model
variable {F : Type}

/-- The lookup structures of a model are those of its vocabulary. -/
structure WF (m : Model F) : Prop where
  ids : ∀ v i, m.tokenToIds v = some i ↔ LastIndex m.vocab v i
  trie : ∀ v, m.trie.find v = (m.tokenToIds v).map (fun i => (i, v.length))

theorem from_nil : (from_ [] : Model F) = { vocab := [], tokenToIds := fun _ => none, trie := TNode.empty } := rfl

theorem from_snoc (v : List (ScoredToken F)) (t : ScoredToken F) :
    from_ (v ++ [t]) = (from_ v).addToken t := by
  simp [from_, addToken, List.zipIdx_append, fromStep]

theorem from_append (v ts : List (ScoredToken F)) : from_ (v ++ ts) = (from_ v).addTokens ts := by
  induction ts generalizing v with
  | nil => simp [addTokens]
  | cons t ts ih =>
    have : v ++ t :: ts = (v ++ [t]) ++ ts := by simp
    rw [this, ih, from_snoc]
    rfl

theorem wf_nil : (from_ [] : Model F).WF := by
  constructor
  · intro v i
    simp [from_nil, LastIndex]
  · intro v
    simp [from_nil]

theorem WF.addToken {m : Model F} (h : m.WF) (t : ScoredToken F) : (m.addToken t).WF := by
  constructor
  · intro v i
    simp only [Model.addToken]
    by_cases hv : v = t.value
    · subst hv
      simp only [if_true, Option.some.injEq, LastIndex]
      constructor
      · intro hi
        subst hi
        refine ⟨⟨t, by simp, rfl⟩, ?_⟩
        intro j t' hj ht'
        have : j < (m.vocab ++ [t]).length := (List.getElem?_eq_some_iff.1 ht').1
        simp only [List.length_append, List.length_singleton] at this
        omega
      · rintro ⟨⟨t', ht', hv'⟩, hlast⟩
        have hi : i < (m.vocab ++ [t]).length := (List.getElem?_eq_some_iff.1 ht').1
        simp only [List.length_append, List.length_singleton] at hi
        rcases Nat.lt_or_ge i m.vocab.length with hlt | hge
        · exact absurd rfl (hlast m.vocab.length t hlt (by simp))
        · omega
    · simp only [hv, if_false]
      rw [h.ids]
      unfold LastIndex
      constructor
      · rintro ⟨⟨t', ht', hv'⟩, hlast⟩
        have hi : i < m.vocab.length := (List.getElem?_eq_some_iff.1 ht').1
        refine ⟨⟨t', by rw [List.getElem?_append_left hi]; exact ht', hv'⟩, ?_⟩
        intro j t'' hj ht''
        rcases Nat.lt_or_ge j m.vocab.length with hlt | hge
        · rw [List.getElem?_append_left hlt] at ht''
          exact hlast j t'' hj ht''
        · have : j < (m.vocab ++ [t]).length := (List.getElem?_eq_some_iff.1 ht'').1
          simp only [List.length_append, List.length_singleton] at this
          have hje : j = m.vocab.length := by omega
          subst hje
          simp at ht''
          subst ht''
          exact fun e => hv e.symm
      · rintro ⟨⟨t', ht', hv'⟩, hlast⟩
        have hi : i < (m.vocab ++ [t]).length := (List.getElem?_eq_some_iff.1 ht').1
        simp only [List.length_append, List.length_singleton] at hi
        rcases Nat.lt_or_ge i m.vocab.length with hlt | hge
        · rw [List.getElem?_append_left hlt] at ht'
          refine ⟨⟨t', ht', hv'⟩, ?_⟩
          intro j t'' hj ht''
          have hj' : j < m.vocab.length := (List.getElem?_eq_some_iff.1 ht'').1
          exact hlast j t'' hj (by rw [List.getElem?_append_left hj']; exact ht'')
        · have hie : i = m.vocab.length := by omega
          subst hie
          simp at ht'
          subst ht'
          exact absurd hv'.symm hv
  · intro v
    simp only [Model.addToken, TNode.find_push, h.trie v]
    by_cases hv : v = t.value
    · simp [hv, ScoredToken.len]
    · simp [hv]

theorem WF.addTokens {m : Model F} (h : m.WF) (ts : List (ScoredToken F)) : (m.addTokens ts).WF := by
  induction ts generalizing m with
  | nil => exact h
  | cons t ts ih => exact ih (h.addToken t)

theorem wf_from (v : List (ScoredToken F)) : (from_ v).WF := by
  have := from_append ([] : List (ScoredToken F)) v
  rw [List.nil_append] at this
  rw [this]
  exact wf_nil.addTokens v

@[simp] theorem from_vocab (v : List (ScoredToken F)) : (from_ v).vocab = v := rfl

theorem addTokens_vocab (m : Model F) (ts : List (ScoredToken F)) :
    (m.addTokens ts).vocab = m.vocab ++ ts := by
  induction ts generalizing m with
  | nil => simp [Model.addTokens]
  | cons t ts ih =>
    have : m.addTokens (t :: ts) = (m.addToken t).addTokens ts := rfl
    rw [this, ih]
    simp [Model.addToken]

theorem LastIndex.lt {vocab : List (ScoredToken F)} {v : Token} {i : Nat} (h : LastIndex vocab v i) :
    i < vocab.length := by
  obtain ⟨⟨t, ht, _⟩, _⟩ := h
  exact (List.getElem?_eq_some_iff.1 ht).1

theorem WF.id_lt {m : Model F} (h : m.WF) {v : Token} {i : Nat} (hv : m.tokenToIds v = some i) :
    i < m.vocab.length := LastIndex.lt ((h.ids v i).1 hv)

theorem WF.id_value {m : Model F} (h : m.WF) {v : Token} {i : Nat} (hv : m.tokenToIds v = some i) :
    ∃ t, m.vocab[i]? = some t ∧ t.value = v := ((h.ids v i).1 hv).1

/-- Some entry holds `v` iff `token_to_id` finds it. -/
theorem exists_lastIndex {vocab : List (ScoredToken F)} {v : Token} (h : ∃ t ∈ vocab, t.value = v) :
    ∃ i, LastIndex vocab v i := by
  induction vocab with
  | nil => simp at h
  | cons a l ih =>
    by_cases hl : ∃ t ∈ l, t.value = v
    · obtain ⟨i, ⟨t3, h3, h4⟩, h5⟩ := ih hl
      refine ⟨i + 1, ⟨t3, by simpa using h3, h4⟩, ?_⟩
      intro j t6 hj h6
      cases j with
      | zero => omega
      | succ j => exact h5 j t6 (by omega) (by simpa using h6)
    · obtain ⟨t, ht, hv⟩ := h
      refine ⟨0, ⟨a, by simp, ?_⟩, ?_⟩
      · rcases List.mem_cons.1 ht with rfl | h9
        · exact hv
        · exact absurd ⟨t, h9, hv⟩ hl
      · intro j t6 hj h6 hv6
        cases j with
        | zero => omega
        | succ j =>
          simp at h6
          exact hl ⟨t6, List.mem_of_getElem? h6, hv6⟩

theorem WF.isSome_iff {m : Model F} (h : m.WF) (v : Token) :
    (∃ i, m.tokenToIds v = some i) ↔ ∃ t ∈ m.vocab, t.value = v := by
  constructor
  · rintro ⟨i, hi⟩
    obtain ⟨t, ht, hv⟩ := h.id_value hi
    exact ⟨t, List.mem_of_getElem? ht, hv⟩
  · intro hv
    obtain ⟨i, hi⟩ := exists_lastIndex hv
    exact ⟨i, (h.ids v i).2 hi⟩

end Model
end Tokengeex

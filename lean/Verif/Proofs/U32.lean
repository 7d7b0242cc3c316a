import Verif.Model.U32
import Verif.Proofs.Tokenizer
/-
Conversions to `u32` lose nothing in tokenizers that are not too large.
-/
namespace Tokengeex

theorem u32_eq {n : Nat} (h : n < 2 ^ 32) : u32 n = n := Nat.mod_eq_of_lt h

variable {F : Type}

theorem Model.from32_eq (vocab : List (ScoredToken F)) (hn : vocab.length ≤ 2 ^ 32)
    (hl : ∀ t ∈ vocab, t.value.length < 2 ^ 32) : Model.from32 vocab = Model.from_ vocab := by
  have : ∀ (l : List (ScoredToken F × Nat)) acc, (∀ p ∈ l, p.2 < 2 ^ 32 ∧ p.1.value.length < 2 ^ 32) →
      l.foldl Model.fromStep32 acc = l.foldl Model.fromStep acc := by
    intro l
    induction l with
    | nil => intros; rfl
    | cons p l ih =>
      intro acc h
      have hp := h p (by simp)
      rw [List.foldl_cons, List.foldl_cons, ih _ fun q hq => h q (List.mem_cons_of_mem _ hq)]
      congr 1
      rw [Model.fromStep32, Model.fromStep, u32_eq hp.1, u32_eq (show p.1.len < 2 ^ 32 from hp.2)]
  unfold Model.from32 Model.from_
  rw [this]
  intro p hp
  have := List.mem_zipIdx hp
  exact ⟨by omega, hl _ (this.2.2 ▸ List.getElem_mem _)⟩

theorem Model.addToken_vocab (m : Model F) (tok : ScoredToken F) : (m.addToken tok).vocab = m.vocab ++ [tok] := rfl

theorem Model.addTokens32_eq : ∀ (tokens : List (ScoredToken F)) (m : Model F), (m.vocab ++ tokens).length ≤ 2 ^ 32 →
    (∀ t ∈ tokens, t.value.length < 2 ^ 32) → m.addTokens32 tokens = m.addTokens tokens := by
  intro tokens
  induction tokens with
  | nil => intros; rfl
  | cons t tokens ih =>
    intro m hn hl
    have e : m.addToken32 t = m.addToken t := by
      rw [List.length_append, List.length_cons] at hn
      unfold Model.addToken32 Model.addToken
      rw [u32_eq (by omega), u32_eq (show t.len < 2 ^ 32 from hl t (by simp))]
    show (m.addToken32 t).addTokens32 tokens = (m.addToken t).addTokens tokens
    rw [e]
    refine ih _ ?_ fun x hx => hl x (List.mem_cons_of_mem _ hx)
    rw [Model.addToken_vocab, List.append_assoc]
    exact hn

namespace Tokenizer

theorem addSpecialToken_growth (t : Tokenizer F) (tok : Str) : (t.addSpecialToken tok).model = t.model ∧
    t.specialTokens.length ≤ (t.addSpecialToken tok).specialTokens.length := by
  unfold addSpecialToken
  by_cases h : (t.specialMap tok).isSome = true
  · rw [if_pos h]; exact ⟨rfl, Nat.le_refl _⟩
  · rw [if_neg h]; exact ⟨rfl, by simp⟩

theorem addSpecialTokens_growth : ∀ (ts : List Str) (t : Tokenizer F), (t.addSpecialTokens ts).model = t.model ∧
    t.specialTokens.length ≤ (t.addSpecialTokens ts).specialTokens.length := by
  intro ts
  induction ts with
  | nil => intro t; exact ⟨rfl, Nat.le_refl _⟩
  | cons x ts ih =>
    intro t
    have h1 := addSpecialToken_growth t x
    have h2 := ih (t.addSpecialToken x)
    exact ⟨h2.1.trans h1.1, Nat.le_trans h1.2 h2.2⟩

theorem addSpecialTokens32_eq : ∀ (ts : List Str) (t : Tokenizer F), (t.addSpecialTokens ts).specialTokens.length ≤ 2 ^ 32 →
    t.addSpecialTokens32 ts = t.addSpecialTokens ts := by
  intro ts
  induction ts with
  | nil => intros; rfl
  | cons x ts ih =>
    intro t h
    have hg := (addSpecialTokens_growth ts (t.addSpecialToken x)).2
    have e : t.addSpecialToken32 x = t.addSpecialToken x := by
      unfold addSpecialToken32 addSpecialToken
      by_cases hx : (t.specialMap x).isSome = true
      · rw [if_pos hx, if_pos hx]
      · rw [if_neg hx, if_neg hx]
        have hlen : (t.addSpecialToken x).specialTokens.length = t.specialTokens.length + 1 := by
          unfold addSpecialToken
          rw [if_neg hx]
          simp
        have : ((t.addSpecialToken x).addSpecialTokens ts).specialTokens.length ≤ 2 ^ 32 := h
        rw [u32_eq (by omega)]
    show (t.addSpecialToken32 x).addSpecialTokens32 ts = (t.addSpecialToken x).addSpecialTokens ts
    rw [e]
    exact ih _ h

theorem apply_growth (t : Tokenizer F) (op : Op F) : (∃ more, (t.apply op).model.vocab = t.model.vocab ++ more) ∧
    t.specialTokens.length ≤ (t.apply op).specialTokens.length := by
  cases op with
  | addSpecial ts =>
    have := addSpecialTokens_growth ts t
    exact ⟨⟨[], by rw [apply, this.1]; simp⟩, this.2⟩
  | addBase ts => exact ⟨⟨ts, Model.addTokens_vocab _ _⟩, Nat.le_refl _⟩

theorem applyAll_growth : ∀ (ops : List (Op F)) (t : Tokenizer F),
    (∃ more, (ops.foldl apply t).model.vocab = t.model.vocab ++ more) ∧
    t.specialTokens.length ≤ (ops.foldl apply t).specialTokens.length := by
  intro ops
  induction ops with
  | nil => intro t; exact ⟨⟨[], by simp⟩, Nat.le_refl _⟩
  | cons op ops ih =>
    intro t
    obtain ⟨⟨m1, h1⟩, h2⟩ := apply_growth t op
    obtain ⟨⟨m2, h3⟩, h4⟩ := ih (t.apply op)
    rw [List.foldl_cons]
    exact ⟨⟨m1 ++ m2, by rw [h3, h1, List.append_assoc]⟩, Nat.le_trans h2 h4⟩

theorem applyAll32_eq : ∀ (ops : List (Op F)) (t : Tokenizer F), (ops.foldl apply t).model.vocab.length ≤ 2 ^ 32 →
    (ops.foldl apply t).specialTokens.length ≤ 2 ^ 32 →
    (∀ tok ∈ (ops.foldl apply t).model.vocab, tok.value.length < 2 ^ 32) → ops.foldl apply32 t = ops.foldl apply t := by
  intro ops
  induction ops with
  | nil => intros; rfl
  | cons op ops ih =>
    intro t h1 h2 h3
    rw [List.foldl_cons] at h1 h2 h3
    obtain ⟨⟨more, hm⟩, hs⟩ := applyAll_growth ops (t.apply op)
    have e : t.apply32 op = t.apply op := by
      cases op with
      | addSpecial ts => exact addSpecialTokens32_eq ts t (Nat.le_trans hs h2)
      | addBase ts =>
        have hv : (t.apply (.addBase ts)).model.vocab = t.model.vocab ++ ts := Model.addTokens_vocab _ _
        rw [hm, hv] at h1 h3
        show ({ t with model := t.model.addTokens32 ts } : Tokenizer F) = { t with model := t.model.addTokens ts }
        rw [Model.addTokens32_eq ts t.model (by rw [List.length_append] at h1; omega)
          (fun x hx => h3 x (by simp [hx]))]
    rw [List.foldl_cons, List.foldl_cons, e]
    exact ih _ h1 h2 h3

end Tokenizer

theorem Model.decodeLoop32_eq (m : Model F) (h : m.vocabSize < 2 ^ 32) : ∀ (ids : List TokenID) (res : List UInt8),
    m.decodeLoop32 ids res = m.decodeLoop ids res := by
  intro ids
  induction ids with
  | nil => intro res; rfl
  | cons id ids ih =>
    intro res
    rw [Model.decodeLoop32, Model.decodeLoop, u32_eq h]
    simp only [ih]

theorem Model.decode32_eq (m : Model F) (h : m.vocabSize < 2 ^ 32) (ids : List TokenID) : m.decode32 ids = m.decode ids := by
  rw [Model.decode32, Model.decode, Model.decodeLoop32_eq m h]

namespace Tokenizer

theorem decodeLoop32_eq (t : Tokenizer F) (h : t.model.vocabSize < 2 ^ 32) (inc : Bool) : ∀ (fuel : Nat) (input : List TokenID)
    (output : Str), t.decodeLoop32 inc fuel input output = t.decodeLoop inc fuel input output := by
  intro fuel
  induction fuel with
  | zero => intros; rfl
  | succ fuel ih =>
    intro input output
    rw [Tokenizer.decodeLoop32, Tokenizer.decodeLoop, u32_eq h]
    simp only [ih, Model.decode32_eq t.model h]
    rfl

theorem encodeLoop32_eq [ScoreOps F] (checked : Bool) (norm : UnicodeForm → Str → Str) (t : Tokenizer F)
    (h : t.model.vocabSize < 2 ^ 32) (hm : ∀ s id, t.specialMap s = some id → t.model.vocabSize + id < 2 ^ 32) (dropout : F)
    (rnd : Nat → F) : ∀ (fuel : Nat) (input : Str) (k : Nat) (ids : List TokenID),
    t.encodeLoop32 checked norm dropout rnd fuel input k ids = t.encodeLoop norm dropout rnd fuel input k ids := by
  have hp : ∀ item (rnd : Nat → F), t.encodePiece32 checked norm item dropout rnd = t.encodePiece norm item dropout rnd := by
    intro item rnd
    unfold encodePiece32 encodePiece
    by_cases hi : item.2 = true
    · rw [if_pos hi, if_pos hi]
      cases hs : t.specialMap item.1 with
      | none => rfl
      | some id =>
        dsimp only
        rw [addU32, u32_eq h, if_pos (hm _ _ hs)]
        rfl
    · rw [if_neg hi, if_neg hi]
  intro fuel
  induction fuel with
  | zero => intros; rfl
  | succ fuel ih =>
    intro input k ids
    rw [encodeLoop32, encodeLoop]
    simp only [ih, hp]
    rfl

end Tokenizer
end Tokengeex

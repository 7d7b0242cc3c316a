import Verif.Proofs.Json
import Verif.Proofs.Base64
import Verif.Proofs.Tokenizer
import Verif.Model.Serde
import Verif.Spec.Serde
/-
Serialisation and deserialisation of tokens, processors and tokenizers.
-/
namespace Tokengeex
open Spec Json
variable {F : Type}

/-! ### Round trips through the tree -/

theorem seen_str (N : NumText F) (s : Str) : seen N (.str s) = some (.str (seenStr s)) := by rw [seen]

theorem seenStr_plain {s : Str} (h : ∀ c ∈ s, ¬ NeedsEscape c) : seenStr s = ⟨s, false⟩ := by
  unfold seenStr
  rw [decide_eq_false]
  rintro ⟨c, hc, hn⟩
  exact h c hc hn

theorem seen_num (N : NumText F) (x : F) :
    seen N (.num x) = match N.print x with | none => some .null | some t => (N.value t).map .num := by rw [seen]; rfl

theorem seen_bool (N : NumText F) (b : Bool) : seen N (.bool b) = some (.bool b) := by rw [seen]

theorem key_value : seenStr "value".toList = ⟨"value".toList, false⟩ := by decide
theorem key_score : seenStr "score".toList = ⟨"score".toList, false⟩ := by decide
theorem key_encoded : seenStr "encoded".toList = ⟨"encoded".toList, false⟩ := by decide
theorem key_keep : seenStr "keep".toList = ⟨"keep".toList, false⟩ := by decide

namespace ScoredToken

/-- What the reader makes of the members after `value` and `score`. -/
theorem flags_seen (N : NumText F) (e k : Bool) :
    seenMembers N ((if e then [("encoded".toList, .bool true)] else []) ++ (if k then [("keep".toList, .bool true)] else [])) =
      some ((if e then [(⟨"encoded".toList, false⟩, .bool true)] else []) ++
        (if k then [(⟨"keep".toList, false⟩, .bool true)] else [])) := by
  cases e <;> cases k <;>
    simp only [if_true, if_false, Bool.false_eq_true, List.nil_append, List.append_nil, List.cons_append, seenMembers,
      seen_bool, Option.bind_some, Option.map_some, key_encoded, key_keep]

theorem field_value (f : Fields F) (s : RawStr) :
    field f (⟨"value".toList, false⟩, .str s) = some { f with value := some s.text } := rfl
theorem field_score (f : Fields F) (x : F) :
    field f (⟨"score".toList, false⟩, .num x) = some { f with score := some x } := rfl
theorem field_null (f : Fields F) :
    field f (⟨"score".toList, false⟩, .null) = some { f with score := none } := rfl
theorem field_encoded (f : Fields F) (b : Bool) :
    field f (⟨"encoded".toList, false⟩, .bool b) = some { f with encoded := b } := rfl
theorem field_keep (f : Fields F) (b : Bool) :
    field f (⟨"keep".toList, false⟩, .bool b) = some { f with keep := b } := rfl

theorem flags_fields (f : Fields F) (e k : Bool) (hf : f.encoded = false) (hk : f.keep = false) :
    ((if e then [((⟨"encoded".toList, false⟩ : RawStr), Json.bool true)] else []) ++
        (if k then [((⟨"keep".toList, false⟩ : RawStr), Json.bool true)] else [])).foldlM field f =
      some { f with encoded := e, keep := k } := by
  obtain ⟨a, b, c, d⟩ := f
  simp only at hf hk
  subst hf hk
  cases e <;> cases k <;> rfl

theorem roundtrip (N : NumText F) (t : ScoredToken F) :
    (seen N t.toJson).bind ofJson = (reread N t.score).map fun y => { t with score := y } := by
  obtain ⟨bytes, score, keep⟩ := t
  unfold toJson
  simp only [seen, List.cons_append, List.nil_append, seenMembers, flags_seen, key_value, key_score,
    Option.bind_some, Option.map_some]
  unfold reread
  cases hp : N.print score with
  | none =>
    simp only [Option.bind_some, Option.map_some, ofJson, List.foldlM_cons, field_value, field_null, Option.bind_eq_bind,
      flags_fields, Option.bind_none, Option.map_none]
    simp only [ofFields, Option.bind_eq_bind, Option.bind_some, Option.bind_none]
    simp
  | some tok =>
    simp only [Option.bind_some]
    cases hv : N.value tok with
    | none => rfl
    | some y =>
      simp only [Option.bind_some, Option.map_some, ofJson, List.foldlM_cons, field_value, field_score,
        Option.bind_eq_bind, flags_fields]
      simp only [ofFields, Option.bind_eq_bind, Option.bind_some]
      cases hu : fromUtf8 bytes with
      | none => simp [seenStr, Base64.decode_encode]
      | some s => simp [seenStr, (fromUtf8_iff.1 hu).symm]

end ScoredToken

namespace Processor

theorem roundtrip (N : NumText F) (p : Processor) :
    (seen N (toJson p : Json Str F)).bind ofJson = some p := by
  cases p with
  | crlf => simp only [toJson, seen, seenMembers, Option.bind_some, Option.map_some]; rfl
  | unicode form => cases form <;> simp only [toJson, seen, seenMembers, Option.bind_some, Option.map_some] <;> rfl

end Processor

/-- Reading back a list, item by item. -/
theorem seenItems_map {α β : Type} (N : NumText F) (f : α → Json Str F) (item : Json RawStr F → Option β) :
    ∀ l : List α, (seenItems N (l.map f)).bind (fun ys => ys.mapM item) = l.mapM fun a => (seen N (f a)).bind item
  | [] => by simp [seenItems]
  | a :: l => by
    have ih := seenItems_map N f item l
    rw [List.map_cons, seenItems, List.mapM_cons, ← ih]
    cases seen N (f a) with
    | none => rfl
    | some y =>
      simp only [Option.bind_some, Option.bind_eq_bind]
      cases seenItems N (l.map f) with
      | none =>
        simp only [Option.map_none, Option.bind_none, Option.bind_fun_none]
      | some ys =>
        simp only [Option.map_some, Option.bind_some, List.mapM_cons, Option.bind_eq_bind]

theorem asVec_seen {α β : Type} (N : NumText F) (f : α → Json Str F) (item : Json RawStr F → Option β) (l : List α) :
    (seen N (.arr (l.map f))).bind (asVec item) = l.mapM fun a => (seen N (f a)).bind item := by
  rw [← seenItems_map, seen]
  cases seenItems N (l.map f) <;> rfl

theorem mapM_some {α β : Type} (g : α → β) (l : List α) : (l.mapM fun a => some (g a)) = some (l.map g) := by
  induction l with
  | nil => rfl
  | cons a l ih => rw [List.mapM_cons, ih]; rfl

namespace Tokenizer

/-- A tokenizer whose special tokens are borrowed from the text. -/
def Plain (s : Str) : Prop := ∀ c ∈ s, ¬ NeedsEscape c

instance (s : Str) : Decidable (Plain s) := by unfold Plain; infer_instance

theorem asBorrowed_seenStr (s : Str) : asBorrowed (.str (seenStr s) : Json RawStr F) = if Plain s then some s else none := by
  unfold asBorrowed asKey
  by_cases h : Plain s
  · rw [if_pos h, seenStr_plain h]; rfl
  · rw [if_neg h]
    have : (∃ c ∈ s, NeedsEscape c) := by
      apply Decidable.byContradiction
      intro hne
      exact h fun c hc hn => hne ⟨c, hc, hn⟩
    simp [seenStr, this]

theorem mapM_if {α : Type} (p : α → Prop) [DecidablePred p] : ∀ l : List α,
    (l.mapM fun a => if p a then some a else none) = if ∀ a ∈ l, p a then some l else none
  | [] => by simp
  | a :: l => by
    rw [List.mapM_cons, mapM_if p l]
    by_cases h : p a
    · by_cases h' : ∀ b ∈ l, p b
      · rw [if_pos h, if_pos h', if_pos (by intro b hb; rcases List.mem_cons.1 hb with rfl | hb'; exact h; exact h' b hb')]
        rfl
      · rw [if_pos h, if_neg h', if_neg (fun hh => h' fun b hb => hh b (by simp [hb]))]
        rfl
    · rw [if_neg h, if_neg (fun hh : ∀ b ∈ a :: l, p b => h (hh a (by simp)))]
      rfl

theorem asVec_specials (N : NumText F) (l : List Str) :
    (seen N (.arr (l.map .str) : Json Str F)).bind (asVec asBorrowed) = if ∀ s ∈ l, Plain s then some l else none := by
  rw [asVec_seen, ← mapM_if]
  congr 1
  funext s
  rw [seen_str, Option.bind_some, asBorrowed_seenStr]

theorem asVec_processors (N : NumText F) (l : List Processor) :
    (seen N (.arr (l.map Processor.toJson) : Json Str F)).bind (asVec Processor.ofJson) = some l := by
  rw [asVec_seen]
  have : (fun p => (seen N (Processor.toJson p : Json Str F)).bind Processor.ofJson) = fun p => some (id p) := by
    funext p; exact Processor.roundtrip N p
  rw [this, mapM_some, List.map_id]

theorem asVec_vocab (N : NumText F) (l : List (ScoredToken F)) :
    (seen N (.arr (l.map ScoredToken.toJson) : Json Str F)).bind (asVec ScoredToken.ofJson) =
      l.mapM fun t => (reread N t.score).map fun y => { t with score := y } := by
  rw [asVec_seen]
  congr 1
  funext t
  exact ScoredToken.roundtrip N t

theorem key_version : seenStr "version".toList = ⟨"version".toList, false⟩ := by decide
theorem key_special : seenStr "special_tokens".toList = ⟨"special_tokens".toList, false⟩ := by decide
theorem key_processors : seenStr "processors".toList = ⟨"processors".toList, false⟩ := by decide
theorem key_vocab : seenStr "vocab".toList = ⟨"vocab".toList, false⟩ := by decide
theorem seen_version : seenStr serializationVersion = ⟨serializationVersion, false⟩ := by decide

theorem field_version (f : Fields F) (s : RawStr) :
    field f (⟨"version".toList, false⟩, .str s) = some { f with version := some s.text } := rfl
theorem field_special (f : Fields F) (j : Json RawStr F) :
    field f (⟨"special_tokens".toList, false⟩, j) = (asVec asBorrowed j).map fun v => { f with specialTokens := v } := by
  show (asVec asBorrowed j).bind (fun v => some { f with specialTokens := v }) = _
  cases asVec asBorrowed j <;> rfl
theorem field_vocab (f : Fields F) (j : Json RawStr F) :
    field f (⟨"vocab".toList, false⟩, j) = (asVec ScoredToken.ofJson j).map fun v => { f with vocab := v } := by
  show (asVec ScoredToken.ofJson j).bind (fun v => some { f with vocab := v }) = _
  cases asVec ScoredToken.ofJson j <;> rfl
theorem field_processors (f : Fields F) (j : Json RawStr F) :
    field f (⟨"processors".toList, false⟩, j) = (asVec Processor.ofJson j).map fun v => { f with processors := v } := by
  show (asVec Processor.ofJson j).bind (fun v => some { f with processors := v }) = _
  cases asVec Processor.ofJson j <;> rfl

theorem roundtrip (N : NumText F) (t : Tokenizer F) :
    (seen N t.toJson).bind ofJson =
      if ∀ s ∈ t.specialTokens, Plain s then
        (t.model.vocab.mapM fun t => (reread N t.score).map fun y => { t with score := y }).map fun v =>
          new (Model.from_ v) t.processors t.specialTokens
      else none := by
  have h1 := asVec_specials N t.specialTokens
  have h2 := asVec_processors N t.processors
  have h3 := asVec_vocab N t.model.vocab
  unfold toJson
  simp only [seen.eq_6, seenMembers, seen_str, Option.bind_some, key_version, key_special, key_processors, key_vocab,
    seen_version]
  have hs : ∃ a, seen N (.arr (t.specialTokens.map .str) : Json Str F) = some a := by
    rw [seen]
    have : ∀ l : List Str, ∃ a, seenItems N (l.map .str : List (Json Str F)) = some a := by
      intro l
      induction l with
      | nil => exact ⟨[], by rw [List.map_nil, seenItems]⟩
      | cons s l ih =>
        obtain ⟨a, ha⟩ := ih
        exact ⟨_, by rw [List.map_cons, seenItems, seen_str, ha]; rfl⟩
    obtain ⟨a, ha⟩ := this t.specialTokens
    exact ⟨_, by rw [ha]; rfl⟩
  obtain ⟨a, ha⟩ := hs
  have hp : ∃ b, seen N (.arr (t.processors.map Processor.toJson) : Json Str F) = some b := by
    cases hb : seen N (.arr (t.processors.map Processor.toJson) : Json Str F) with
    | none => rw [hb] at h2; cases h2
    | some b => exact ⟨b, rfl⟩
  obtain ⟨b, hb⟩ := hp
  rw [ha, Option.bind_some] at h1
  rw [hb, Option.bind_some] at h2
  rw [ha, hb]
  simp only [Option.bind_some]
  cases hc : seen N (.arr (t.model.vocab.map ScoredToken.toJson) : Json Str F) with
  | none =>
    rw [hc, Option.bind_none] at h3
    rw [← h3]
    simp
  | some c =>
    rw [hc, Option.bind_some] at h3
    simp only [Option.bind_some, Option.map_some, ofJson, List.foldlM_cons, List.foldlM_nil, field_version, field_special,
      field_processors, field_vocab, Option.bind_eq_bind, h1, h2, h3]
    by_cases hpl : ∀ s ∈ t.specialTokens, Plain s
    · rw [if_pos hpl, if_pos hpl]
      simp only [Option.map_some, Option.bind_some]
      cases (t.model.vocab.mapM fun t => (reread N t.score).map fun y => { t with score := y }) with
      | none => rfl
      | some v => rfl
    · rw [if_neg hpl, if_neg hpl]
      rfl

theorem nesting_toJson (t : Tokenizer F) : nesting t.toJson ≤ 3 := by
  have h1 : ∀ l : List Str, nestingItems (l.map .str : List (Json Str F)) = 0 := by
    intro l
    induction l with
    | nil => rw [List.map_nil, nestingItems]
    | cons s l ih => rw [List.map_cons, nestingItems, ih, nesting]; all_goals simp
  have h2 : ∀ l : List Processor, nestingItems (l.map Processor.toJson : List (Json Str F)) ≤ 1 := by
    intro l
    induction l with
    | nil => rw [List.map_nil, nestingItems]; omega
    | cons p l ih =>
      rw [List.map_cons, nestingItems]
      have : nesting (Processor.toJson p : Json Str F) ≤ 1 := by
        cases p <;> simp [Processor.toJson, nesting, nestingMembers]
      omega
  have h3 : ∀ l : List (ScoredToken F), nestingItems (l.map ScoredToken.toJson) ≤ 1 := by
    intro l
    induction l with
    | nil => rw [List.map_nil, nestingItems]; omega
    | cons p l ih =>
      rw [List.map_cons, nestingItems]
      have : nesting p.toJson ≤ 1 := by
        unfold ScoredToken.toJson
        cases p.keep <;> cases fromUtf8 p.value <;> simp [nesting, nestingMembers]
      omega
  unfold toJson
  have a := h1 t.specialTokens
  have b := h2 t.processors
  have c := h3 t.model.vocab
  simp only [nesting, nestingMembers]
  omega

/-- Two tokenizers built by the API agree if they hold the same tokens and processors. -/
theorem WF.ext {t u : Tokenizer F} (ht : t.WF) (hu : u.WF) (hv : t.model.vocab = u.model.vocab)
    (hp : t.processors = u.processors) (hs : t.specialTokens = u.specialTokens) : t = u := by
  have hm : t.model = u.model := by rw [ht.model, hu.model, hv]
  have hmap : t.specialMap = u.specialMap := by
    funext s
    cases h : u.specialMap s with
    | some i => rw [ht.map, hs, ← hu.map, h]
    | none =>
      cases h' : t.specialMap s with
      | none => rfl
      | some i => rw [ht.map, hs, ← hu.map, h] at h'; cases h'
  obtain ⟨_, _, _, _⟩ := t
  obtain ⟨_, _, _, _⟩ := u
  simp only at hm hp hs hmap
  subst hm hp hs hmap
  rfl

/-- Rebuilding from the parts of a tokenizer. -/
theorem new_specialTokens (m : Model F) (ps : List Processor) : ∀ (l : List Str), l.Nodup →
    (new m ps l).specialTokens = l := by
  have key : ∀ (l : List Str) (t : Tokenizer F), (∀ s, (t.specialMap s).isSome = true ↔ s ∈ t.specialTokens) →
      (t.specialTokens ++ l).Nodup → (t.addSpecialTokens l).specialTokens = t.specialTokens ++ l := by
    intro l
    induction l with
    | nil => intro t _ _; simp [addSpecialTokens]
    | cons s l ih =>
      intro t ht hn
      have hs : s ∉ t.specialTokens := by
        intro h
        exact (List.nodup_append.1 hn).2.2 s h s (by simp) rfl
      have hns : ¬ (t.specialMap s).isSome = true := by rw [ht]; exact hs
      have : t.addSpecialTokens (s :: l) = (t.addSpecialToken s).addSpecialTokens l := rfl
      rw [this]
      have hadd : (t.addSpecialToken s).specialTokens = t.specialTokens ++ [s] := by
        unfold addSpecialToken; rw [if_neg hns]
      rw [ih, hadd, List.append_assoc]; rfl
      · intro x
        rw [hadd]
        unfold addSpecialToken
        rw [if_neg hns]
        simp only []
        by_cases hx : x = s
        · subst hx; simp
        · rw [if_neg hx, ht]; simp [hx]
      · rw [hadd, List.append_assoc]; exact hn
  intro l hl
  unfold new
  rw [key l _ (by intro s; simp) (by simpa using hl)]
  rfl

theorem new_model (m : Model F) (ps : List Processor) (l : List Str) : (new m ps l).model = m := by
  unfold new; rw [addSpecialTokens_model]
theorem new_processors (m : Model F) (ps : List Processor) (l : List Str) : (new m ps l).processors = ps := by
  unfold new; rw [addSpecialTokens_processors]

theorem WF.rebuild {t : Tokenizer F} (h : t.WF) : Tokenizer.new (Model.from_ t.model.vocab) t.processors t.specialTokens = t :=
  WF.ext (WF.new _ _ _) h (by rw [new_model]; rfl) (new_processors _ _ _) (new_specialTokens _ _ _ h.nodup)

end Tokenizer
end Tokengeex

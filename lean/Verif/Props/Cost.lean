import Verif.Proofs.Cost
import Verif.Props.Model
import Mathlib.Tactic.Ring
import Mathlib.Tactic.Linarith
/-
C91: encode and decode take linear time.
-/
namespace Tokengeex
open Spec ScoreOps Model

variable {F : Type} [ScoreOps F]

/-- **C91** `Model::encode` is linear: with no token longer than `longest` bytes, a text of `n` bytes takes at most
`(2 * longest + 5) * n + 3` steps, whatever the tokens, the scores and the dropout, and whether or not the text can be
encoded.  The function that counts returns what `encode` returns. -/
theorem C91_encode (vocab : List (ScoredToken F)) (processors : List Processor) (specials : List Str)
    (ops : List (Tokenizer.Op F)) (longest : Nat)
    (hl : ∀ t ∈ (Tokenizer.build vocab processors specials ops).model.vocab, t.value.length ≤ longest) (text : Str)
    (dropout : F) (rnd : Nat → F) :
    let m := (Tokenizer.build vocab processors specials ops).model
    (Cost.encode m text dropout rnd).1 = m.encode text dropout rnd ∧
    (Cost.encode m text dropout rnd).2 ≤ (2 * longest + 5) * (enc text).length + 3 := by
  intro m
  have h := Cost.encodeBytes_eq m (enc text) dropout rnd (Cost.shallow_build vocab processors specials ops longest hl)
  refine ⟨?_, h.2⟩
  unfold Cost.encode Model.encode Model.encodeR
  rw [← h.1]

omit [ScoreOps F] in
/-- **C91** `Model::decode` is linear: with no token longer than `longest` bytes, `n` ids take at most
`(2 * longest + 1) * n` steps, valid or not. -/
theorem C91_decode (m : Model F) (longest : Nat) (hl : ∀ t ∈ m.vocab, t.value.length ≤ longest) (ids : List TokenID) :
    (Cost.decode m ids).1 = m.decode ids ∧ (Cost.decode m ids).2 ≤ (2 * longest + 1) * ids.length := by
  have h := Cost.decodeLoop_eq m hl ids []
  have e : (2 * longest + 1) * ids.length = (longest + 1) * ids.length + longest * ids.length := by ring
  rw [e]
  unfold Cost.decode Model.decode
  obtain ⟨h1, h2, h3⟩ := h
  rw [← h1]
  rcases hx : Cost.decodeLoop m ids [] with ⟨r, c⟩
  rw [hx] at h2 h3
  cases r with
  | error err => exact ⟨rfl, by simp only at h2 ⊢; omega⟩
  | ok bs =>
    refine ⟨rfl, ?_⟩
    have h4 := h3 bs rfl
    have h5 := Cost.lossySteps_le bs.length bs
    simp only [List.length_nil] at h2 h4 ⊢
    omega

/-- **C91** `Tokenizer::encode` is linear if the empty string is not a special token and the processors do not make a text
longer than `growth` times: the work apart from the processors is at most a constant, made of the longest token, `growth`
and the lengths of the special tokens, times the length of the text. -/
theorem C91_tokenizer (norm : UnicodeForm → Str → Str) (vocab : List (ScoredToken F)) (processors : List Processor)
    (specials : List Str) (ops : List (Tokenizer.Op F)) (longest growth : Nat)
    (hl : ∀ t ∈ (Tokenizer.build vocab processors specials ops).model.vocab, t.value.length ≤ longest)
    (hg : ∀ s, (enc ((Tokenizer.build vocab processors specials ops).preprocess norm s)).length ≤ growth * (enc s).length)
    (he : [] ∉ (Tokenizer.build vocab processors specials ops).specialTokens) (text : Str) (dropout : F) (rnd : Nat → F) :
    let t := Tokenizer.build vocab processors specials ops
    (Cost.tokenizerEncode norm t text dropout rnd).1 = t.encode norm text dropout rnd ∧
    (Cost.tokenizerEncode norm t text dropout rnd).2 ≤
      ((2 * longest + 5) * growth + 2 * (t.specialTokens.map fun s => 1 + (enc s).length).sum + 5) * (enc text).length + 1 := by
  intro t
  have h := Cost.encodeLoop_eq norm t dropout rnd (Cost.shallow_build vocab processors specials ops longest hl) hg he
    (text.length + 1) text 0 []
  refine ⟨h.1, le_trans h.2 (le_of_eq ?_)⟩
  unfold Cost.width
  ring

/-- Replacing by something no longer does not make a text longer. -/
theorem replaceGo_length (pat rep : Str) (h : (enc rep).length ≤ (enc pat).length) :
    ∀ (fuel : Nat) (s : Str), (enc (replaceGo pat rep fuel s)).length ≤ (enc s).length := by
  intro fuel
  induction fuel with
  | zero => intro s; simp [replaceGo]
  | succ fuel ih =>
    intro s
    cases s with
    | nil => simp [replaceGo]
    | cons c cs =>
      rw [replaceGo]
      by_cases hx : pat.isPrefixOf (c :: cs) = true
      · rw [if_pos hx]
        obtain ⟨r, hr⟩ := List.isPrefixOf_iff_prefix.1 hx
        rw [← hr, List.drop_left, enc_append, enc_append, List.length_append, List.length_append]
        have := ih r
        omega
      · rw [if_neg hx]
        have e : ∀ x : Str, enc (c :: x) = enc [c] ++ enc x := fun x => by rw [← enc_append]; rfl
        rw [e, e cs, List.length_append, List.length_append]
        have := ih cs
        omega

omit [ScoreOps F] in
theorem build_processors (vocab : List (ScoredToken F)) (processors : List Processor) (specials : List Str)
    (ops : List (Tokenizer.Op F)) : (Tokenizer.build vocab processors specials ops).processors = processors := by
  have h1 : ∀ (l : List Str) (t : Tokenizer F), (t.addSpecialTokens l).processors = t.processors := by
    intro l
    induction l with
    | nil => intro t; rfl
    | cons s l ih =>
      intro t
      have : (t.addSpecialToken s).processors = t.processors := by
        unfold Tokenizer.addSpecialToken
        by_cases h : (t.specialMap s).isSome = true
        · rw [if_pos h]
        · rw [if_neg h]
      rw [← this]
      exact ih _
  have h2 : ∀ (ops : List (Tokenizer.Op F)) (t : Tokenizer F), (ops.foldl Tokenizer.apply t).processors = t.processors := by
    intro ops
    induction ops with
    | nil => intro t; rfl
    | cons op ops ih =>
      intro t
      rw [List.foldl_cons, ih]
      cases op with
      | addSpecial ts => exact h1 ts t
      | addBase ts => rfl
  unfold Tokenizer.build
  rw [h2]
  exact h1 _ _

omit [ScoreOps F] in
/-- **C91** In particular with no processors but CRLF ones, which never make a text longer. -/
theorem C91_crlf (norm : UnicodeForm → Str → Str) (vocab : List (ScoredToken F)) (processors : List Processor)
    (specials : List Str) (ops : List (Tokenizer.Op F)) (hp : ∀ p ∈ processors, p = .crlf) (s : Str) :
    (enc ((Tokenizer.build vocab processors specials ops).preprocess norm s)).length ≤ 1 * (enc s).length := by
  rw [Nat.one_mul]
  unfold Tokenizer.preprocess
  have e : (Tokenizer.build vocab processors specials ops).processors = processors := build_processors _ _ _ _
  rw [e]
  clear e
  induction processors generalizing s with
  | nil => exact le_refl _
  | cons p ps ih =>
    rw [List.foldl_cons]
    refine le_trans (ih (fun q hq => hp q (List.mem_cons_of_mem _ hq)) _) ?_
    rw [hp p List.mem_cons_self]
    exact replaceGo_length _ _ (by decide) _ _

/-- The tokens "a", "aa", …: `l` of them. -/
def repeats (score : F) (l : Nat) : List (ScoredToken F) :=
  (List.range l).map fun i => ⟨List.replicate (i + 1) 97, score, false⟩

/-- **C91** The factor `longest` is really there: with the tokens "a", "aa", …, up to `l` letters, a text of `n` letters "a"
takes at least `l * (n - l)` steps. -/
theorem C91_factor (score : F) (l n : Nat) (hl : 0 < l) (hn : l ≤ n) (dropout : F) (rnd : Nat → F) :
    l * (n - l) ≤ (Cost.encode (from_ (repeats score l)) (List.replicate n 'a') dropout rnd).2 := by
  have henc : enc (List.replicate n 'a') = List.replicate n 97 := by
    clear hn
    induction n with
    | zero => rfl
    | succ n ih =>
      rw [List.replicate_succ, List.replicate_succ, ← ih]
      have : enc ('a' :: List.replicate n 'a') = enc ['a'] ++ enc (List.replicate n 'a') := by rw [← enc_append]; rfl
      rw [this]; rfl
  have hm := wf_from (repeats score l)
  have hmem : ∀ i, i < l → ∃ t ∈ repeats score l, t.value = List.replicate (i + 1) 97 := by
    intro i hi
    exact ⟨⟨List.replicate (i + 1) 97, score, false⟩, List.mem_map.2 ⟨i, List.mem_range.2 hi, rfl⟩, rfl⟩
  unfold Cost.encode
  simp only
  rw [henc]
  have hk : TNode.DepthLe l (from_ (repeats score l)).trie := Cost.shallow_from _ l (by
    intro t ht
    obtain ⟨i, hi, rfl⟩ := List.mem_map.1 ht
    have := List.mem_range.1 hi
    simp only [List.length_replicate]
    omega)
  refine le_trans ?_ (Cost.encodeBytes_ge hm dropout rnd (List.replicate n 97)
    (pTable_covered hm dropout rnd _ (by
      intro b hb
      rw [List.eq_of_mem_replicate hb]
      exact hmem 0 hl)) hk)
  have hge : ∀ i, i < n - l → l ≤ ((from_ (repeats score l)).commonPrefixSearch ((List.replicate n 97).drop i)).length := by
    intro i hi
    refine Cost.cps_length_ge hm (by simp; omega) ?_
    intro j hj
    unfold edge
    rw [if_pos (by simp; omega)]
    have e : ((List.replicate n (97 : UInt8)).drop i).take (i + (j + 1) - i) = List.replicate (j + 1) 97 := by
      rw [List.drop_replicate, List.take_replicate]
      congr 1
      omega
    rw [e]
    obtain ⟨id, hid⟩ := (hm.isSome_iff _).2 (hmem j hj)
    rw [hid]; rfl
  rw [List.length_replicate]
  generalize hf : (fun i => ((from_ (repeats score l)).commonPrefixSearch ((List.replicate n 97).drop i)).length) = f
  replace hge : ∀ i, i < n - l → l ≤ f i := by
    intro i hi
    rw [← hf]
    exact hge i hi
  have : ∀ q, q ≤ n - l → l * q ≤ ((List.range q).map f).sum := by
    intro q
    induction q with
    | zero => intro _; simp
    | succ q ih =>
      intro hq
      have h1 := ih (by omega)
      have h2 := hge q (by omega)
      rw [List.range_succ, List.map_append, List.sum_append, Nat.mul_succ]
      simp only [List.map_cons, List.map_nil, List.sum_cons, List.sum_nil]
      omega
  refine le_trans (this _ (Nat.le_refl _)) ?_
  have e : n = (n - l) + l := by omega
  have : List.range n = List.range (n - l) ++ (List.range l).map ((n - l) + ·) := by
    rw [← List.range_add]; exact congrArg List.range e
  rw [this, List.map_append, List.sum_append]
  omega

/-- **C91** So no constant serves every vocabulary: a text of `n` bytes can take more than `c * (n + 1)` steps. -/
theorem C91_not_uniform (score : F) (c : Nat) (dropout : F) (rnd : Nat → F) :
    ∃ (vocab : List (ScoredToken F)) (text : Str),
      c * ((enc text).length + 1) < (Cost.encode (from_ vocab) text dropout rnd).2 := by
  let l := 2 * c + 2
  have henc : ∀ n, (enc (List.replicate n 'a')).length = n := by
    intro n
    induction n with
    | zero => rfl
    | succ n ih =>
      have : enc ('a' :: List.replicate n 'a') = enc ['a'] ++ enc (List.replicate n 'a') := by rw [← enc_append]; rfl
      rw [List.replicate_succ, this, List.length_append, ih]
      simp only [show (enc ['a']).length = 1 from rfl]
      omega
  refine ⟨repeats score l, List.replicate (2 * l) 'a', ?_⟩
  have h := C91_factor score l (2 * l) (by omega) (by omega) dropout rnd
  rw [henc]
  refine lt_of_lt_of_le ?_ h
  have : 2 * l - l = l := by omega
  rw [this]
  show c * (2 * (2 * c + 2) + 1) < (2 * c + 2) * (2 * c + 2)
  nlinarith

omit [ScoreOps F] in
example (score : F) : (from_ (repeats score 3)).vocab.map (·.value) = [[97], [97, 97], [97, 97, 97]] := rfl

/-- Non-vacuity: a tokenizer with a special token and a CRLF processor meets the hypotheses, and counts. -/
def costExample : Tokenizer Int := Tokenizer.build exVocab [.crlf] [['<', 's', '>']] []

example : (∀ t ∈ costExample.model.vocab, t.value.length ≤ 2) ∧ [] ∉ costExample.specialTokens := by decide
example : ((Cost.tokenizerEncode (fun _ s => s) costExample ['a', 'b', '<', 's', '>', 'a'] 0 exRnd).1,
    (Cost.tokenizerEncode (fun _ s => s) costExample ['a', 'b', '<', 's', '>', 'a'] 0 exRnd).2) = (.ok [3, 1, 7, 3], 53) := by decide
example : (Cost.decode costExample.model [0, 1]).2 = 6 := by decide

end Tokengeex

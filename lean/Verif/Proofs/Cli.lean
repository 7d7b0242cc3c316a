import Verif.Spec.Cli
import Verif.Proofs.JsonPrefix
import Verif.Proofs.Loader
import Verif.Props.Serde
import Verif.Props.History
import Verif.Props.Regex
/-
Files written and read by the commands.
-/
namespace Tokengeex
open Spec

variable {F : Type}

namespace Json

mutual
/-- Strings that were written without escapes need none, and numbers are what some text stands for. -/
def Faithful (N : NumText F) : Json RawStr F → Prop
  | .str r => r.escaped = false → Tokenizer.Plain r.text
  | .num x => ∃ t, N.value t = some x
  | .arr xs => FaithfulItems N xs
  | .obj ms => FaithfulMembers N ms
  | _ => True

def FaithfulItems (N : NumText F) : List (Json RawStr F) → Prop
  | [] => True
  | x :: xs => Faithful N x ∧ FaithfulItems N xs

def FaithfulMembers (N : NumText F) : List (RawStr × Json RawStr F) → Prop
  | [] => True
  | m :: ms => Faithful N m.2 ∧ FaithfulMembers N ms
end

theorem faithfulItems_mem {N : NumText F} : ∀ {xs : List (Json RawStr F)}, FaithfulItems N xs → ∀ x ∈ xs, Faithful N x
  | [], _, x, hx => by simp at hx
  | y :: ys, h, x, hx => by
    rw [FaithfulItems] at h
    rcases List.mem_cons.1 hx with rfl | hx
    · exact h.1
    · exact faithfulItems_mem h.2 x hx

theorem faithfulMembers_mem {N : NumText F} : ∀ {ms : List (RawStr × Json RawStr F)}, FaithfulMembers N ms → ∀ m ∈ ms, Faithful N m.2
  | [], _, x, hx => by simp at hx
  | y :: ys, h, x, hx => by
    rw [FaithfulMembers] at h
    rcases List.mem_cons.1 hx with rfl | hx
    · exact h.1
    · exact faithfulMembers_mem h.2 x hx

theorem readStr_plain : ∀ (f : Nat) (s : Str) (r : RawStr × Str), readStr f s = some r → r.1.escaped = false →
    Tokenizer.Plain r.1.text := by
  intro f
  induction f with
  | zero => intro s r h; simp [readStr] at h
  | succ f ih =>
    intro s r h he
    cases s with
    | nil => simp [readStr] at h
    | cons c rest =>
      rw [readStr] at h
      by_cases c1 : c = '"'
      · rw [if_pos c1] at h
        cases h
        intro c hc
        simp at hc
      rw [if_neg c1] at h
      by_cases c2 : c = '\\'
      · rw [if_pos c2] at h
        simp only [Option.bind_eq_bind, Option.bind_eq_some_iff, Option.some.injEq] at h
        obtain ⟨e, _, r', _, rfl⟩ := h
        simp at he
      rw [if_neg c2] at h
      by_cases c3 : c.toNat < 32
      · rw [if_pos c3] at h; cases h
      rw [if_neg c3] at h
      simp only [Option.bind_eq_bind, Option.bind_eq_some_iff, Option.some.injEq] at h
      obtain ⟨r', hr, rfl⟩ := h
      have := ih _ _ hr he
      intro d hd
      rcases List.mem_cons.1 hd with rfl | hd
      · rintro (h | h | h)
        · exact c1 h
        · exact c2 h
        · exact c3 h
      · exact this d hd

theorem read_faithful_fuel (N : NumText F) : ∀ f : Nat,
    (∀ l s v, readValue N f l s = some v → Faithful N v.1) ∧
    (∀ l s v, readItems N f l s = some v → FaithfulItems N v.1) ∧
    (∀ l s v, readMembers N f l s = some v → FaithfulMembers N v.1)
  | 0 => ⟨by intro l s v h; simp [readValue] at h, by intro l s v h; simp [readItems] at h,
      by intro l s v h; simp [readMembers] at h⟩
  | f + 1 => by
    obtain ⟨ihv, ihi, ihm⟩ := read_faithful_fuel N f
    refine ⟨?_, ?_, ?_⟩
    · intro l s v h
      rw [readValue] at h
      cases hs : skip s with
      | nil => rw [hs] at h; cases h
      | cons c rest =>
        simp only [hs] at h
        by_cases c1 : c = 'n'
        · rw [if_pos c1] at h
          by_cases hp : "ull".toList.isPrefixOf rest = true
          · rw [if_pos hp] at h; cases h; rw [Faithful] <;> simp
          · rw [if_neg hp] at h; cases h
        rw [if_neg c1] at h
        by_cases c2 : c = 't'
        · rw [if_pos c2] at h
          by_cases hp : "rue".toList.isPrefixOf rest = true
          · rw [if_pos hp] at h; cases h; rw [Faithful] <;> simp
          · rw [if_neg hp] at h; cases h
        rw [if_neg c2] at h
        by_cases c3 : c = 'f'
        · rw [if_pos c3] at h
          by_cases hp : "alse".toList.isPrefixOf rest = true
          · rw [if_pos hp] at h; cases h; rw [Faithful] <;> simp
          · rw [if_neg hp] at h; cases h
        rw [if_neg c3] at h
        by_cases c4 : c = '"'
        · rw [if_pos c4] at h
          obtain ⟨r, hr, rfl⟩ := Option.map_eq_some_iff.1 h
          rw [Faithful]
          exact readStr_plain _ _ _ hr
        rw [if_neg c4] at h
        by_cases c5 : c = '['
        · rw [if_pos c5] at h
          by_cases hl : l ≤ 1
          · rw [if_pos hl] at h; cases h
          rw [if_neg hl] at h
          split at h
          · cases h; rw [Faithful, FaithfulItems]; trivial
          · obtain ⟨w, hw, rfl⟩ := Option.map_eq_some_iff.1 h
            rw [Faithful]
            exact ihi _ _ _ hw
        rw [if_neg c5] at h
        by_cases c6 : c = '{'
        · rw [if_pos c6] at h
          by_cases hl : l ≤ 1
          · rw [if_pos hl] at h; cases h
          rw [if_neg hl] at h
          split at h
          · cases h; rw [Faithful, FaithfulMembers]; trivial
          · obtain ⟨w, hw, rfl⟩ := Option.map_eq_some_iff.1 h
            rw [Faithful]
            exact ihm _ _ _ hw
        rw [if_neg c6] at h
        obtain ⟨w, hw, rfl⟩ := Option.map_eq_some_iff.1 h
        rw [Faithful]
        unfold readNumber at hw
        simp only [Option.bind_eq_bind, Option.bind_eq_some_iff] at hw
        obtain ⟨t, _, x, hx, e⟩ := hw
        cases e
        exact ⟨_, hx⟩
    · intro l s v h
      rw [readItems] at h
      obtain ⟨w, hw, h⟩ := Option.bind_eq_some_iff.1 h
      split at h
      · cases h
        rw [FaithfulItems, FaithfulItems]
        exact ⟨ihv _ _ _ hw, trivial⟩
      · obtain ⟨p, hp, rfl⟩ := Option.map_eq_some_iff.1 h
        rw [FaithfulItems]
        exact ⟨ihv _ _ _ hw, ihi _ _ _ hp⟩
      · cases h
    · intro l s v h
      rw [readMembers] at h
      split at h
      · obtain ⟨k, hk, h⟩ := Option.bind_eq_some_iff.1 h
        split at h
        · obtain ⟨w, hw, h⟩ := Option.bind_eq_some_iff.1 h
          split at h
          · cases h
            rw [FaithfulMembers, FaithfulMembers]
            exact ⟨ihv _ _ _ hw, trivial⟩
          · obtain ⟨p, hp, rfl⟩ := Option.map_eq_some_iff.1 h
            rw [FaithfulMembers]
            exact ⟨ihv _ _ _ hw, ihm _ _ _ hp⟩
          · cases h
        · cases h
      · cases h

theorem read_faithful {N : NumText F} {text : Str} {j : Json RawStr F} (h : read N text = some j) : Faithful N j := by
  unfold read at h
  obtain ⟨v, hv, h⟩ := Option.bind_eq_some_iff.1 h
  by_cases hs : skip v.2 = []
  · rw [if_pos hs] at h
    cases h
    exact (read_faithful_fuel N _).1 _ _ _ hv
  · rw [if_neg hs] at h; cases h

end Json

/-- The special tokens of a tokenizer that was read from a text need no escapes. -/
theorem fromStr_plain {N : NumText F} {text : Str} {t : Tokenizer F} (h : Tokenizer.fromStr N text = some t) :
    t.WF ∧ ∀ s ∈ t.specialTokens, Tokenizer.Plain s := by
  unfold Tokenizer.fromStr at h
  obtain ⟨j, hj, h⟩ := Option.bind_eq_some_iff.1 h
  obtain ⟨vocab, ps, specials, ⟨ms, rfl, _, _, hsp, _⟩, rfl⟩ := (Tokenizer.ofJson_iff j t).1 h
  refine ⟨Tokenizer.WF.new _ _ _, fun s hs => ?_⟩
  have hmem : s ∈ specials := by
    have := ((Tokenizer.build_spec vocab ps specials ([] : List (Tokenizer.Op F))).2.2.1 s).1 hs
    simpa [givenSpecial] using this
  have hf := Json.read_faithful hj
  rw [Json.Faithful] at hf
  obtain ⟨_, hsp⟩ := hsp
  cases hl : lastMember "special_tokens".toList ms with
  | none =>
    rw [hl] at hsp
    simp only at hsp
    rw [hsp] at hmem
    simp at hmem
  | some v =>
    rw [hl] at hsp
    obtain ⟨items, rfl, hall⟩ := hsp
    obtain ⟨m, hm, e⟩ := lastMember_mem hl
    have h1 := Json.faithfulMembers_mem hf m hm
    rw [e.2, Json.Faithful] at h1
    have : ∀ (items : List (Json RawStr F)) (specials : List Str), List.Forall₂ IsPlainText items specials →
        Json.FaithfulItems N items → ∀ s ∈ specials, Tokenizer.Plain s := by
      intro items specials hall
      induction hall with
      | nil => intro _ s hs; simp at hs
      | cons hx _ ih =>
        intro hf s hs
        rw [Json.FaithfulItems] at hf
        rcases List.mem_cons.1 hs with rfl | hs
        · obtain ⟨r, rfl, h2, h3⟩ := hx
          have := hf.1
          rw [Json.Faithful] at this
          rw [← h3]
          exact this h2
        · exact ih hf.2 s hs
    exact this items specials hall h1 s hmem

/-- The scores of a tokenizer that was read from a text are what some texts stand for. -/
theorem fromStr_scores {N : NumText F} {text : Str} {t : Tokenizer F} (h : Tokenizer.fromStr N text = some t) :
    ∀ token ∈ t.model.vocab, ∃ tok, N.value tok = some token.score := by
  unfold Tokenizer.fromStr at h
  obtain ⟨j, hj, h⟩ := Option.bind_eq_some_iff.1 h
  obtain ⟨vocab, ps, specials, ⟨ms, rfl, _, _, _, _, hv⟩, rfl⟩ := (Tokenizer.ofJson_iff j t).1 h
  intro token htok
  rw [Tokenizer.new_model, Model.from_vocab] at htok
  have hf := Json.read_faithful hj
  rw [Json.Faithful] at hf
  obtain ⟨_, hv⟩ := hv
  cases hl : lastMember "vocab".toList ms with
  | none =>
    rw [hl] at hv
    simp only at hv
    rw [hv] at htok
    simp at htok
  | some v =>
    rw [hl] at hv
    obtain ⟨items, rfl, hall⟩ := hv
    obtain ⟨m, hm, e⟩ := lastMember_mem hl
    have h1 := Json.faithfulMembers_mem hf m hm
    rw [e.2, Json.Faithful] at h1
    have : ∀ (items : List (Json RawStr F)) (vocab : List (ScoredToken F)), List.Forall₂ IsToken items vocab →
        Json.FaithfulItems N items → ∀ t ∈ vocab, ∃ tok, N.value tok = some t.score := by
      intro items vocab hall
      induction hall with
      | nil => intro _ s hs; simp at hs
      | @cons item tk _ _ hx _ ih =>
        intro hf s hs
        rw [Json.FaithfulItems] at hf
        rcases List.mem_cons.1 hs with rfl | hs
        · obtain ⟨ms', text', encoded, rfl, _, _, hscore, _⟩ := hx
          have h2 := hf.1
          rw [Json.Faithful] at h2
          obtain ⟨_, hscore⟩ := hscore
          cases hl' : lastMember "score".toList ms' with
          | none => rw [hl'] at hscore; simp at hscore
          | some w =>
            rw [hl'] at hscore
            obtain ⟨m', hm', e'⟩ := lastMember_mem hl'
            have h3 := Json.faithfulMembers_mem h2 m' hm'
            rw [e'.2] at h3
            have hw : w = .num s.score := hscore
            rw [hw, Json.Faithful] at h3
            exact h3
        · exact ih hf.2 s hs
    exact this items vocab hall h1 token htok

namespace Cli

theorem fromFile_ok {N : NumText F} {fs : Files} {path : Str} {t : Tokenizer F} (h : fromFile N fs path = .ok t) :
    ∃ text, fs path = some (enc text) ∧ Tokenizer.fromStr N text = some t := by
  unfold fromFile readToString at h
  obtain ⟨text, h1, h2⟩ := bind_ok h
  obtain ⟨bytes, h3, h4⟩ := bind_ok h1
  refine ⟨text, ?_, unwrap_ok h2⟩
  rw [unwrap_ok h3, fromUtf8_iff.1 (unwrap_ok h4)]

theorem readToString_enc {fs : Files} {path text : Str} (h : fs path = some (enc text)) : readToString fs path = .ok text := by
  unfold readToString
  rw [h]
  show unwrap (fromUtf8 (enc text)) = _
  rw [fromUtf8_enc]
  rfl

theorem fromFile_enc (N : NumText F) {fs : Files} {path text : Str} (h : fs path = some (enc text)) :
    fromFile N fs path = unwrap (Tokenizer.fromStr N text) := by
  unfold fromFile
  rw [readToString_enc h]
  rfl

/-- The files themselves do not matter, only what is at the path. -/
theorem fromFile_congr (N : NumText F) {fs fs' : Files} {path path' : Str} (h : fs path = fs' path') :
    fromFile N fs path = fromFile N fs' path' := by
  unfold fromFile readToString
  rw [h]

theorem fromFile_or {N : NumText F} {fs : Files} {path : Str} :
    (∃ t, fromFile N fs path = .ok t) ∨ fromFile N fs path = .error .panic := by
  unfold fromFile readToString
  cases fs path with
  | none => exact .inr rfl
  | some bytes =>
    show (∃ t, (unwrap (fromUtf8 bytes) >>= _) = .ok t) ∨ (unwrap (fromUtf8 bytes) >>= _) = _
    cases fromUtf8 bytes with
    | none => exact .inr rfl
    | some text =>
      show (∃ t, unwrap (Tokenizer.fromStr N text) = .ok t) ∨ unwrap (Tokenizer.fromStr N text) = _
      cases Tokenizer.fromStr N text with
      | none => exact .inr rfl
      | some t => exact .inl ⟨t, rfl⟩

/-- The parts of an encoded text are encoded texts or no texts at all. -/
theorem take_enc {text p : Str} {k : Nat} (h : (enc text).take k = enc p) : ∃ q, text = p ++ q ∧ (k < (enc text).length → q ≠ []) := by
  have e : enc text = enc p ++ (enc text).drop k := by rw [← h, List.take_append_drop]
  have e2 : text = p ++ lossy ((enc text).drop k) := by
    have := congrArg lossy e
    rwa [lossy_enc, lossy_enc_append] at this
  refine ⟨_, e2, fun hk hq => ?_⟩
  rw [hq, List.append_nil] at e2
  rw [← e2] at h
  have := congrArg List.length h
  rw [List.length_take] at this
  omega

/-- A truncated file loads as JSON only if what is left is a number. -/
theorem truncated {N : NumText F} (hN : PrintsNumbers N) {style : Json.Style} {j : Json Str F} (hd : nesting j < 128) {k : Nat}
    (hk : k < (enc (Json.write N style 0 j)).length) {text : Str} (ht : (enc (Json.write N style 0 j)).take k = enc text)
    {y : Json RawStr F} (hy : Json.read N text = some y) : ∃ x, y = .num x := by
  obtain ⟨q, e, hq⟩ := take_enc ht
  exact Json.read_prefix N hN style j hd e (hq hk) hy

theorem fromStr_num {N : NumText F} {text : Str} {x : F} (h : Json.read N text = some (.num x)) :
    Tokenizer.fromStr N text = none := by
  unfold Tokenizer.fromStr
  rw [h]
  rfl

end Cli
end Tokengeex

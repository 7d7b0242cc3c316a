import Verif.Proofs.Loader
import Verif.Proofs.JsonFuel
import Verif.Proofs.IntNumbers
/-
C27 to C30: what saving and loading preserves, and what the loader accepts.
-/
namespace Tokengeex
open Spec
variable {F : Type}

/-- C27, except for scores.  Writing any scored token as JSON, compactly or indented, and reading it back gives exactly
the same bytes and the same keep flag, whether or not the bytes are valid UTF-8; and the score is the one its printed
text stands for (`reread`).  Reading fails if there is none: a score that is not finite is written as `null`.

What is missing for C27 is that every finite score is the one its printed text is read as.  That depends on how numbers are
printed and parsed (`N`); Props/Number64.lean settles it for serde_json's doubles: it is false in general (C27_false),
and true of scores with at most 15 digits (C27_digits_partial). -/
theorem C27_token_partial (N : NumText F) (hN : PrintsNumbers N) (style : Json.Style) (t : ScoredToken F) :
    (Json.read N (Json.write N style 0 t.toJson)).bind ScoredToken.ofJson =
      (reread N t.score).map fun y => { value := t.value, score := y, keep := t.keep } := by
  rw [Json.read_write N hN style _ ?_, ScoredToken.roundtrip]
  have : nesting t.toJson ≤ 1 := by
    unfold ScoredToken.toJson
    cases t.keep <;> cases fromUtf8 t.value <;> simp [nesting, nestingMembers]
  omega

/-- The token with the single byte 255, and the token "é\n", with their texts. -/
example :
    Json.write intNumbers .compact 0 (ScoredToken.toJson ⟨[255], -12, true⟩) =
      "{\"value\":\"/w\",\"score\":-12.0,\"encoded\":true,\"keep\":true}".toList ∧
    Json.write intNumbers .pretty 0 (ScoredToken.toJson ⟨[195, 169, 10], 0, false⟩) =
      "{\n  \"value\": \"é\\n\",\n  \"score\": 0.0\n}".toList := by decide +kernel

example (t : ScoredToken Int) (style : Json.Style) :
    (Json.read intNumbers (Json.write intNumbers style 0 t.toJson)).bind ScoredToken.ofJson = some t := by
  rw [C27_token_partial intNumbers intNumbers_prints, intNumbers_reread]
  rfl

theorem fromStr_write (N : NumText F) (hN : PrintsNumbers N) (style : Json.Style) (t : Tokenizer F) :
    Tokenizer.fromStr N (Json.write N style 0 t.toJson) =
      if ∀ s ∈ t.specialTokens, Tokenizer.Plain s then
        (t.model.vocab.mapM fun t => (reread N t.score).map fun y => { t with score := y }).map fun v =>
          Tokenizer.new (Model.from_ v) t.processors t.specialTokens
      else none := by
  unfold Tokenizer.fromStr
  rw [Json.read_write N hN style _ (by have := Tokenizer.nesting_toJson t; omega), Tokenizer.roundtrip]

/-- C28 in full is false: loading fails as soon as one special token contains a quote, a backslash or a control
character, whatever else the tokenizer holds.  (The loader borrows special tokens from the text, which is impossible
when they were written with escapes.) -/
theorem C28_false (N : NumText F) (hN : PrintsNumbers N) (vocab : List (ScoredToken F)) (processors : List Processor)
    (specials : List Str) (ops : List (Tokenizer.Op F)) (s : Str) (c : Char)
    (hs : s ∈ (Tokenizer.build vocab processors specials ops).specialTokens) (hc : c ∈ s)
    (hesc : c = '"' ∨ c = '\\' ∨ c.toNat < 32) :
    let t := Tokenizer.build vocab processors specials ops
    Tokenizer.fromStr N (t.toString N) = none ∧ Tokenizer.fromStr N (t.fileContents N) = none := by
  have h : ¬ ∀ s ∈ (Tokenizer.build vocab processors specials ops).specialTokens, Tokenizer.Plain s :=
    fun h => h s hs c hc hesc
  exact ⟨by rw [Tokenizer.toString, fromStr_write N hN, if_neg h], by rw [Tokenizer.fileContents, fromStr_write N hN, if_neg h]⟩

/-- An empty vocabulary and the special token made of a single line break. -/
example : (Tokenizer.build ([] : List (ScoredToken Int)) [] [['\n']] []).specialTokens = [['\n']] ∧
    (Tokenizer.build ([] : List (ScoredToken Int)) [] [['\n']] []).toString intNumbers =
      "{\"version\":\"2.0\",\"special_tokens\":[\"\\n\"],\"processors\":[],\"vocab\":[]}".toList := by decide +kernel

/-- C28 for tokenizers whose special tokens need no escapes and whose scores survive printing: whatever calls built the
tokenizer, what `to_string` and `save` write loads back as exactly the same tokenizer, so that every method behaves the
same.  What is missing is stated by C28_false and C28_encode_false. -/
theorem C28_reload_partial (N : NumText F) (hN : PrintsNumbers N) (vocab : List (ScoredToken F))
    (processors : List Processor) (specials : List Str) (ops : List (Tokenizer.Op F)) :
    let t := Tokenizer.build vocab processors specials ops
    (∀ s ∈ t.specialTokens, ∀ c ∈ s, ¬ (c = '"' ∨ c = '\\' ∨ c.toNat < 32)) →
    (∀ token ∈ t.model.vocab, reread N token.score = some token.score) →
    Tokenizer.fromStr N (t.toString N) = some t ∧ Tokenizer.fromStr N (t.fileContents N) = some t := by
  intro t hp hr
  have hwf : t.WF := Tokenizer.wf_build vocab processors specials ops
  have hv : (t.model.vocab.mapM fun t => (reread N t.score).map fun y => { t with score := y }) = some t.model.vocab := by
    have : ∀ l : List (ScoredToken F), (∀ token ∈ l, reread N token.score = some token.score) →
        (l.mapM fun t => (reread N t.score).map fun y => { t with score := y }) = some l := by
      intro l
      induction l with
      | nil => intro _; rfl
      | cons a l ih =>
        intro h
        rw [List.mapM_cons, ih fun x hx => h x (by simp [hx]), h a (by simp)]
        rfl
    exact this _ hr
  have key : ∀ style, Tokenizer.fromStr N (Json.write N style 0 t.toJson) = some t := by
    intro style
    rw [fromStr_write N hN, if_pos (show ∀ s ∈ t.specialTokens, Tokenizer.Plain s from hp), hv, Option.map_some, hwf.rebuild]
  exact ⟨key .compact, key .pretty⟩

/-- C28, in general: loading what `to_string` or `save` wrote succeeds if and only if no special token needs an escape and
every score has a text that is read as a number; and the loaded tokenizer has the same special tokens, the same
processors, and the same tokens with the same keep flags in the same order, with the scores their texts stand for. -/
theorem C28_loaded (N : NumText F) (hN : PrintsNumbers N) (vocab : List (ScoredToken F)) (processors : List Processor)
    (specials : List Str) (ops : List (Tokenizer.Op F)) (style : Json.Style) :
    let t := Tokenizer.build vocab processors specials ops
    let text := Json.write N style 0 t.toJson
    ((∃ u, Tokenizer.fromStr N text = some u) ↔
      (∀ s ∈ t.specialTokens, ∀ c ∈ s, ¬ (c = '"' ∨ c = '\\' ∨ c.toNat < 32)) ∧
      ∀ token ∈ t.model.vocab, ∃ y, reread N token.score = some y) ∧
    ∀ u, Tokenizer.fromStr N text = some u →
      u.specialTokens = t.specialTokens ∧ u.processors = t.processors ∧
      List.Forall₂ (Reloaded N) t.model.vocab u.model.vocab ∧
      u = Tokenizer.new (Model.from_ u.model.vocab) t.processors t.specialTokens := by
  intro t text
  have hwf : t.WF := Tokenizer.wf_build vocab processors specials ops
  have hrel : ∀ a b : ScoredToken F, ((reread N a.score).map fun y => { a with score := y }) = some b ↔ Reloaded N a b := by
    intro a b
    obtain ⟨bv, bs, bk⟩ := b
    unfold Reloaded
    cases reread N a.score with
    | none => simp
    | some y =>
      simp only [Option.map_some, Option.some.injEq, ScoredToken.mk.injEq]
      constructor
      · rintro ⟨rfl, rfl, rfl⟩; exact ⟨rfl, rfl, rfl⟩
      · rintro ⟨rfl, rfl, rfl⟩; exact ⟨rfl, rfl, rfl⟩
  have hsucc : ∀ l : List (ScoredToken F),
      (∃ r, (l.mapM fun t => (reread N t.score).map fun y => { t with score := y }) = some r) ↔
        ∀ token ∈ l, ∃ y, reread N token.score = some y := by
    intro l
    induction l with
    | nil => simp
    | cons a l ih =>
      rw [List.mapM_cons]
      simp only [List.mem_cons, forall_eq_or_imp, ← ih]
      cases reread N a.score with
      | none => simp
      | some y =>
        simp only [Option.map_some, Option.bind_eq_bind, Option.bind_some]
        cases (l.mapM fun t => (reread N t.score).map fun y => { t with score := y }) <;> simp
  have hload := fromStr_write N hN style t
  refine ⟨?_, ?_⟩
  · rw [hload, ← hsucc]
    by_cases hp : ∀ s ∈ t.specialTokens, Tokenizer.Plain s
    · rw [if_pos hp]
      constructor
      · rintro ⟨u, hu⟩
        obtain ⟨r, hr, _⟩ := Option.map_eq_some_iff.1 hu
        exact ⟨hp, r, hr⟩
      · rintro ⟨_, r, hr⟩
        exact ⟨_, by rw [hr]; rfl⟩
    · rw [if_neg hp]
      constructor
      · rintro ⟨u, hu⟩; cases hu
      · rintro ⟨h, _⟩; exact absurd h hp
  · intro u hu
    rw [hload] at hu
    by_cases hp : ∀ s ∈ t.specialTokens, Tokenizer.Plain s
    · rw [if_pos hp] at hu
      obtain ⟨r, hr, rfl⟩ := Option.map_eq_some_iff.1 hu
      have hm : (Tokenizer.new (Model.from_ r) t.processors t.specialTokens).model.vocab = r := by
        rw [Tokenizer.new_model]; rfl
      refine ⟨Tokenizer.new_specialTokens _ _ _ hwf.nodup, Tokenizer.new_processors _ _ _, ?_, ?_⟩
      · rw [hm]; exact (mapM_iff hrel _ _).1 hr
      · rw [hm]
    · rw [if_neg hp] at hu; cases hu

/-- A tokenizer with a text token, a token that is not UTF-8, a processor and a special token meets the conditions. -/
example : let t := Tokenizer.build [⟨[97], -1, false⟩, ⟨[255], (-2 : Int), true⟩] [.crlf, .unicode .nfkc] ["<s>".toList] []
    Tokenizer.fromStr intNumbers (t.fileContents intNumbers) = some t :=
  (C28_reload_partial intNumbers intNumbers_prints _ _ _ _ (by decide) (fun _ _ => intNumbers_reread _)).2

/-- C29.  A JSON value loads as a tokenizer exactly when it is an object with the fields `version`, `special_tokens`,
`processors` and `vocab` only, in any order, whose version is there and is "2.0", and whose other fields, if they are
there, are well-formed (`Spec.IsDocument`); of several occurrences of a field, which must all be well-formed, the last
one counts; and the tokenizer is the one those parts build. -/
theorem C29_loader (j : Json RawStr F) (t : Tokenizer F) :
    Tokenizer.ofJson j = some t ↔ ∃ vocab processors specials, IsDocument j vocab processors specials ∧
      t = Tokenizer.new (Model.from_ vocab) processors specials :=
  Tokenizer.ofJson_iff j t

/-- C29, the order of the fields: reordering the members of an object without repeated names changes nothing. -/
theorem C29_order {ms ms' : List (RawStr × Json RawStr F)} (hp : ms.Perm ms') (hn : (ms.map (·.1.text)).Nodup) :
    Tokenizer.ofJson (.obj ms) = Tokenizer.ofJson (.obj ms') := by
  have hl := fun name => lastMember_perm (name := name) hp hn
  have hreq : ∀ {α : Type} (name : Str) (R : Json RawStr F → α → Prop) r, IsRequired name R ms r ↔ IsRequired name R ms' r := by
    intro α name R r
    unfold IsRequired
    rw [hl name]
    simp only [hp.mem_iff]
  have hfld : ∀ {α : Type} (name : Str) (R : Json RawStr F → α → Prop) d r, IsField name R d ms r ↔ IsField name R d ms' r := by
    intro α name R d r
    unfold IsField
    rw [hl name]
    simp only [hp.mem_iff]
  have key : ∀ t, Tokenizer.ofJson (.obj ms) = some t ↔ Tokenizer.ofJson (.obj ms') = some t := by
    intro t
    simp only [C29_loader, IsDocument, Json.obj.injEq, exists_eq_left', OnlyNames, hp.mem_iff, hreq, hfld]
  cases h : Tokenizer.ofJson (.obj ms) with
  | some t => exact ((key t).1 h).symm
  | none =>
    cases h' : Tokenizer.ofJson (.obj ms') with
    | none => rfl
    | some t => rw [(key t).2 h'] at h; cases h

/-- C29, rejections: a missing version, another version, and an unknown field each make loading fail. -/
theorem C29_rejects (ms : List (RawStr × Json RawStr F)) :
    ((∀ m ∈ ms, m.1.text ≠ "version".toList) → Tokenizer.ofJson (.obj ms) = none) ∧
    (∀ v s, lastMember "version".toList ms = some v → IsText v s → s ≠ "2.0".toList → Tokenizer.ofJson (.obj ms) = none) ∧
    (∀ m ∈ ms, m.1.text ∉ ["version".toList, "special_tokens".toList, "processors".toList, "vocab".toList] →
      Tokenizer.ofJson (.obj ms) = none) := by
  have key : (∀ t, Tokenizer.ofJson (.obj ms) ≠ some t) → Tokenizer.ofJson (.obj ms) = none := by
    intro h
    cases h' : Tokenizer.ofJson (.obj ms) with
    | none => rfl
    | some t => exact absurd h' (h t)
  refine ⟨fun h => key fun t ht => ?_, fun v s hv hs hne => key fun t ht => ?_, fun m hm hn => key fun t ht => ?_⟩
  all_goals
    obtain ⟨vocab, ps, specials, ⟨ms', hms, h0, h1, _⟩, _⟩ := (C29_loader _ _).1 ht
    injection hms with hms
    subst hms
  · obtain ⟨_, v, hv, _⟩ := h1
    obtain ⟨m, hm, hn, _⟩ := lastMember_mem hv
    exact h m hm hn
  · obtain ⟨_, v', hv', r, hr, hr'⟩ := h1
    rw [hv] at hv'
    injection hv' with hv'
    obtain ⟨q, hq, hq'⟩ := hs
    rw [← hv', hq] at hr
    injection hr with hr
    exact hne (by rw [← hq', hr, hr'])
  · exact hn (h0 m hm).2

/-- A file with its fields in another order, a repeated field and no processors loads; the last `special_tokens` counts.
Without the version, with another version or with another field the same file is rejected. -/
example :
    (Tokenizer.fromStr intNumbers ("{\"vocab\":[{\"score\":-1.0,\"value\":\"a\"}],\"special_tokens\":[\"x\"]," ++
      "\"special_tokens\":[\"<s>\"],\"version\":\"2.0\"}").toList).map
        (fun t => (t.model.vocab, t.processors, t.specialTokens)) = some ([⟨[97], -1, false⟩], [], ["<s>".toList]) ∧
    (Tokenizer.fromStr intNumbers "{\"vocab\":[]}".toList).isNone = true ∧
    (Tokenizer.fromStr intNumbers "{\"version\":\"2.1\"}".toList).isNone = true ∧
    (Tokenizer.fromStr intNumbers "{\"version\":\"2.0\",\"size\":3}".toList).isNone = true := by decide +kernel

/-- The tokens the loader accepts, and what it makes of them. -/
theorem C29_tokens (j : Json RawStr F) (t : ScoredToken F) : ScoredToken.ofJson j = some t ↔ IsToken j t :=
  ScoredToken.ofJson_iff j t

/-- C30.  Every list of processors, written as JSON and read back, is unchanged. -/
theorem C30_processors (N : NumText F) (hN : PrintsNumbers N) (style : Json.Style) (ps : List Processor) :
    (Json.read N (Json.write N style 0 (.arr (ps.map Processor.toJson)))).bind (asVec Processor.ofJson) = some ps := by
  rw [Json.read_write N hN style _ ?_, Tokenizer.asVec_processors]
  have : ∀ l : List Processor, nestingItems (l.map Processor.toJson : List (Json Str F)) ≤ 1 := by
    intro l
    induction l with
    | nil => rw [List.map_nil, nestingItems]; omega
    | cons p l ih =>
      rw [List.map_cons, nestingItems]
      have : nesting (Processor.toJson p : Json Str F) ≤ 1 := by
        cases p <;> simp [Processor.toJson, nesting, nestingMembers]
      omega
  have := this ps
  rw [nesting]
  omega

/-- C30, the decoder on every JSON value: it accepts exactly what `Spec.IsProcessor` describes. -/
theorem C30_decoder (j : Json RawStr F) (p : Processor) : Processor.ofJson j = some p ↔ IsProcessor j p :=
  Processor.ofJson_iff j p

/-- Because the variants are tried in order and `type` is not required, an object that gives only a normalisation form
(and even the empty object) is read as the CRLF processor. -/
theorem C30_untyped (form : UnicodeForm) :
    Processor.ofJson (.obj [(⟨"form".toList, false⟩, .str ⟨formName form, false⟩)] : Json RawStr F) = some .crlf ∧
    Processor.ofJson (.obj [] : Json RawStr F) = some .crlf := by
  constructor
  · rw [C30_decoder]
    refine ⟨_, rfl, ?_⟩
    intro m hm
    simp only [List.mem_singleton] at hm
    subst hm
    exact ⟨rfl, fun h => absurd h (show ¬ "form".toList = "type".toList by decide)⟩
  · rfl

example : Json.write intNumbers .compact 0 (.arr ([.crlf, .unicode .nfd].map Processor.toJson)) =
    "[{\"type\":\"crlf\"},{\"type\":\"unicode\",\"form\":\"nfd\"}]".toList := by decide +kernel

end Tokengeex

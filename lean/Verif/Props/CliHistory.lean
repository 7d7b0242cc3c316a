import Verif.Props.Cli
import Verif.Props.Tokenizer
import Verif.Props.Counting
/-
C72 to C74: what sequences of commands preserve.
-/
namespace Tokengeex
open Spec Cli ScoreOps Relation

variable {F : Type}

theorem forall₂_left {α β : Type} {R : α → β → Prop} {l : List α} {m : List β} (h : List.Forall₂ R l m) {k : Nat} {a : α}
    (ha : l[k]? = some a) : ∃ b, m[k]? = some b ∧ R a b := by
  obtain ⟨hk, _⟩ := List.getElem?_eq_some_iff.1 ha
  have hm : m[k]? = some (m[k]'(h.length_eq ▸ hk)) := List.getElem?_eq_getElem _
  exact ⟨_, hm, forall₂_get h ha hm⟩

theorem forall₂_right {α β : Type} {R : α → β → Prop} {l : List α} {m : List β} (h : List.Forall₂ R l m) {k : Nat} {b : β}
    (hb : m[k]? = some b) : ∃ a, l[k]? = some a ∧ R a b := by
  obtain ⟨hk, _⟩ := List.getElem?_eq_some_iff.1 hb
  have hl : l[k]? = some (l[k]'(h.length_eq ▸ hk)) := List.getElem?_eq_getElem _
  exact ⟨_, hl, forall₂_get h hl hb⟩

/-! ### C72: from patterns to vocabularies -/

/-- An allow file written by `regex` admits what one of the patterns matches as a whole. -/
theorem allow_file {names : List Str} (hne : names ≠ []) {regexes : List Regex} (hload : loadPatterns names = .ok regexes)
    (hbreaks : ∀ r ∈ regexes, '\n' ∉ r.text ∧ '\r' ∉ r.text) {contents : List UInt8} (hw : regexCmd names = .ok contents)
    {fs : Files} {path : Str} (hf : fs path = some contents) :
    ∃ re, regexFile fs path = .ok re ∧ ∀ s, re.isMatch s = true ↔ ∃ r ∈ regexes, FullMatch r.re s := by
  obtain ⟨combined, file, h1, h2, h3, h4⟩ := C54_partial names hne regexes hload hbreaks
  rw [hw] at h2
  cases h2
  obtain ⟨hv, hl⟩ := loadPatterns_ok hload
  have hne' : regexes ≠ [] := by
    rintro rfl
    exact hne (List.length_eq_zero_iff.1 hl.symm)
  obtain ⟨combined', h5, h6⟩ := C53_allow regexes hne' fun r hr => by rw [Regex.new, hv r hr]; rfl
  rw [h1] at h5
  cases h5
  exact ⟨combined, by rw [regexFile, hf]; exact h4, h6⟩

variable [TrainOps F] [Mul F]

/-- **C72** If the allow file of `generate` was written by `regex` from a non-empty list of patterns without line breaks,
then every token of the generated file is a single byte, an added token, a suggested token, or a string of at most
`max_token_length` bytes that one of the patterns matches as a whole. -/
theorem C72_generate (env : Env F) (laws : EnvLaws env) (names : List Str) (hne : names ≠ []) (regexes : List Regex)
    (hload : loadPatterns names = .ok regexes) (hbreaks : ∀ r ∈ regexes, '\n' ∉ r.text ∧ '\r' ∉ r.text)
    (fs₀ fs fs' : Files) (a : GenerateArgs F) (allow : Str) (ha : a.allow = some allow)
    (hregex : Runs env (.regex ⟨allow, names⟩) fs₀ fs) (hgen : Runs env (.generate a) fs fs') (u : Tokenizer F)
    (hu : fromFile env.numbers fs' a.output = .ok u) :
    ∃ added suggested, StringsFiles env.numbers fs a.added added ∧ StringsFiles env.numbers fs a.suggested suggested ∧
      ∀ t ∈ u.model.vocab, t.value.length = 1 ∨ ∃ s, enc s = t.value ∧ (s ∈ added ∨ s ∈ suggested ∨
        (t.value.length ≤ a.maxTokenLength ∧ ∃ r ∈ regexes, FullMatch r.re s)) := by
  obtain ⟨file, hw, rfl⟩ := hregex
  obtain ⟨contents, hg, rfl⟩ := hgen
  obtain ⟨vocab, ps, added, suggested, allow', _, h2, h3, h4, _, _, _, h8, _, h10⟩ := C71_generate env laws a _ contents hg
  obtain ⟨re, hre, hm⟩ := allow_file hne hload hbreaks hw (fs := fs₀.write allow file) (path := allow) write_self
  refine ⟨added, suggested, h2, h3, ?_⟩
  obtain ⟨_, _, hall⟩ := (h10 _ a.output write_self).2 u hu
  intro t ht
  obtain ⟨t₀, ht₀, hr⟩ : ∃ t₀ ∈ vocab, Reloaded env.numbers t₀ t := by
    obtain ⟨i, hi⟩ := List.mem_iff_getElem?.1 ht
    obtain ⟨t₀, h11, h12⟩ := forall₂_right hall hi
    exact ⟨t₀, List.mem_of_getElem? h11, h12⟩
  rw [hr.1]
  rcases h8 t₀ ht₀ with h | ⟨s, e, h⟩
  · exact .inl h
  · refine .inr ⟨s, e, ?_⟩
    rcases h with h | h | ⟨h, h'⟩
    · exact .inl h
    · exact .inr (.inl h)
    · refine .inr (.inr ⟨h, (hm s).1 (h' re ?_)⟩)
      rw [ha] at h4
      simp only [Cli.optional] at h4
      rw [show (Command.regex ⟨allow, names⟩ : Command F).output = allow from rfl, hre] at h4
      cases h4
      rfl

/-- **C72** If the allow file of `merge` was written by `regex` from a non-empty list of patterns without line breaks, then
the tokens of the merged file are those of the input, followed by tokens of at most `max_token_length` bytes whose text
(with replacement characters, if they are not UTF-8) one of the patterns matches as a whole. -/
theorem C72_merge (env : Env F) (laws : EnvLaws env) (names : List Str) (hne : names ≠ []) (regexes : List Regex)
    (hload : loadPatterns names = .ok regexes) (hbreaks : ∀ r ∈ regexes, '\n' ∉ r.text ∧ '\r' ∉ r.text)
    (fs₀ fs fs' : Files) (a : MergeArgs F) (hregex : Runs env (.regex ⟨a.allow, names⟩) fs₀ fs)
    (hmerge : Runs env (.merge a) fs fs') (t u : Tokenizer F) (ht : fromFile env.numbers fs a.input = .ok t)
    (hu : fromFile env.numbers fs' a.output = .ok u) :
    ∃ old new, u.model.vocab = old ++ new ∧ List.Forall₂ (Reloaded env.numbers) t.model.vocab old ∧
      new.length ≤ a.numMerges ∧ ∀ token ∈ new, token.keep = false ∧ token.value.length ≤ a.maxTokenLength ∧
        ∃ r ∈ regexes, FullMatch r.re (lossy token.value) := by
  obtain ⟨file, hw, rfl⟩ := hregex
  obtain ⟨contents, hg, rfl⟩ := hmerge
  obtain ⟨added, re', h1, h2, h3, h4⟩ := C71_merge env laws a _ contents hg t ht
  obtain ⟨re, hre, hm⟩ := allow_file hne hload hbreaks hw (fs := fs₀.write a.allow file) (path := a.allow) write_self
  rw [show (Command.regex ⟨a.allow, names⟩ : Command F).output = a.allow from rfl, hre] at h1
  cases h1
  obtain ⟨_, _, hall⟩ := (h4 _ a.output write_self).2 u hu
  have hl := hall.length_eq
  rw [List.length_append] at hl
  have h5 : List.Forall₂ (Reloaded env.numbers) t.model.vocab (u.model.vocab.take t.model.vocab.length) := by
    have := List.forall₂_take t.model.vocab.length hall
    rwa [List.take_left] at this
  have h6 : List.Forall₂ (Reloaded env.numbers) added (u.model.vocab.drop t.model.vocab.length) := by
    have := List.forall₂_drop t.model.vocab.length hall
    rwa [List.drop_left] at this
  refine ⟨u.model.vocab.take t.model.vocab.length, u.model.vocab.drop t.model.vocab.length, (List.take_append_drop _ _).symm, h5,
    by rw [List.length_drop]; omega, ?_⟩
  intro token htok
  obtain ⟨i, hi⟩ := List.mem_iff_getElem?.1 htok
  obtain ⟨t₀, h11, h12⟩ := forall₂_right h6 hi
  obtain ⟨_, _, _, _, _, _, k1, k2, k3⟩ := h3 i t₀ h11
  refine ⟨by rw [h12.2.1, k1], by rw [h12.1]; exact k2, ?_⟩
  rw [h12.1]
  exact (hm _).1 k3

/-! ### C74: from idioms to vocabularies -/

omit [TrainOps F] [Mul F] in
/-- **C74** A list of strings of any kind that `mine` writes is read back by `generate` as exactly that list. -/
theorem C74_idioms (N : NumText F) (hN : PrintsNumbers N) (idioms : List Str) (fs : Files) (path : Str)
    (hfile : fs path = some (enc (Json.write N .pretty 0 (stringsJson idioms)))) : StringsFile N fs path idioms ∧ loadTokens N fs [path] = .ok idioms := by
  have h : stringsOf N (Json.write N .pretty 0 (stringsJson idioms)) = some idioms := by
    unfold stringsOf
    rw [Json.read_write N hN .pretty _ (nesting_strings idioms), stringsJson, asVec_seen]
    have : ∀ s : Str, (seen N (.str s : Json Str F)).bind asString = some s := by
      intro s
      rw [seen_str]
      rfl
    simp only [this]
    rw [mapM_some (fun s => s), List.map_id']
  have hl : loadTokens N fs [path] = .ok idioms := by
    unfold loadTokens
    rw [List.mapM_cons, readToString_enc hfile]
    show ((unwrap (stringsOf N _)) >>= _) >>= _ = _
    rw [h]
    show Except.ok ([idioms].flatten) = _
    simp
  refine ⟨?_, hl⟩
  obtain ⟨lists, h1, h2⟩ := loadTokens_iff.1 hl
  obtain ⟨l, _, h3, h4, rfl⟩ := List.forall₂_cons_left_iff.1 h1
  rw [List.forall₂_nil_left_iff.1 h4] at h2
  have : idioms = l := by simpa using h2
  exact this ▸ h3

/-- **C74** The idioms that `mine` writes, given to `generate` as added tokens: in the generated file, exactly the single
bytes and idioms are protected, and every other token is a suggested one or admitted by the allow pattern. -/
theorem C74_pipeline (env : Env F) (laws : EnvLaws env) (m : MineArgs) (a : GenerateArgs F) (ha : a.added = [m.output])
    (fs₀ fs fs' : Files) (hmine : Runs env (.mine m) fs₀ fs) (hgen : Runs env (.generate a) fs fs') :
    ∃ idioms, StringsFile env.numbers fs m.output idioms ∧ idioms.Nodup ∧ idioms.length ≤ m.numIdioms ∧
      ∀ u, fromFile env.numbers fs' a.output = .ok u → ∀ t ∈ u.model.vocab,
        (t.keep = true ↔ t.value.length = 1 ∨ ∃ s ∈ idioms, enc s = t.value) := by
  obtain ⟨file, hw, rfl⟩ := hmine
  obtain ⟨contents, hg, rfl⟩ := hgen
  obtain ⟨vocab, ps, added, suggested, allow', _, h2, _, _, _, _, _, _, h9, h10⟩ := C71_generate env laws a _ contents hg
  obtain ⟨train, samples, patterns, re, idioms, _, _, _, _, _, _, hmine, rfl⟩ := hw
  have hl := C74_idioms env.numbers laws.numbers (idioms.map (·.1)) (fs₀.write m.output _) m.output write_self
  rw [ha] at h2
  have : added = idioms.map (·.1) := by
    have := hl.2.symm.trans (loadTokens_iff.2 h2)
    cases this
    rfl
  subst this
  refine ⟨_, hl.1, ?_, ?_, ?_⟩
  · exact ((C47_mine _ _ _ laws.byFreq _ _).2 _ hmine).1
  · rw [List.length_map]
    exact ((C47_mine _ _ _ laws.byFreq _ _).2 _ hmine).2.1
  · intro u hu t ht
    obtain ⟨_, _, hall⟩ := (h10 _ a.output write_self).2 u hu
    obtain ⟨i, hi⟩ := List.mem_iff_getElem?.1 ht
    obtain ⟨t₀, h11, h12⟩ := forall₂_right hall hi
    rw [h12.1, h12.2.1]
    exact h9 t₀ (List.mem_of_getElem? h11)

theorem mem_of_matchCount {find : Str → List Str} {samples : List Str} {w : Str} (h : 0 < matchCount find samples w) :
    ∃ s ∈ samples, w ∈ find s := by
  by_contra hno
  have : matchCount find samples w = 0 := by
    unfold matchCount
    refine List.sum_eq_zero ?_
    intro n hn
    obtain ⟨s, hs, rfl⟩ := List.mem_map.1 hn
    rw [List.count_eq_zero]
    exact fun hin => hno ⟨s, hs, hin⟩
  omega

theorem matchCount_pos {find : Str → List Str} {samples : List Str} {w s : Str} (hs : s ∈ samples) (hw : w ∈ find s) :
    0 < matchCount find samples w := by
  unfold matchCount
  have h1 : (find s).count w ∈ samples.map fun s => (find s).count w := List.mem_map.2 ⟨s, hs, rfl⟩
  have h2 := List.single_le_sum (by simp) _ h1
  have h3 := List.count_pos_iff.2 hw
  omega

/-- **C74** What `mine` writes: each idiom is a piece of a sample that one of the given patterns matches there, and if one
of the patterns matches somewhere in a sample and at least one idiom is asked for, there is at least one. -/
theorem C74_patterns (env : Env F) (laws : EnvLaws env) (find : FindLaws env.findIter) (m : MineArgs) (fs fs' : Files)
    (h : Runs env (.mine m) fs fs') :
    ∃ train patterns idioms, Source.loadAll env.norm fs env.parse [] m.train = .ok train ∧
      loadPatterns m.patterns = .ok patterns ∧ StringsFile env.numbers fs' m.output idioms ∧
      (∀ w ∈ idioms, ∃ source ∈ train, ∃ sample ∈ source.processedSamples, ∃ before after, sample = before ++ w ++ after ∧
        ∃ r ∈ patterns, Matches r.re before w after) ∧
      (0 < m.numIdioms → (∃ source ∈ train, ∃ sample ∈ source.processedSamples, ∃ r ∈ patterns, MatchesIn r.re sample) →
        idioms ≠ []) := by
  obtain ⟨file, hw, rfl⟩ := h
  obtain ⟨train, samples, patterns, re, idioms, _, hp, h1, h2, h3, h4, h5, rfl⟩ := hw
  have hl := C74_idioms env.numbers laws.numbers (idioms.map (·.1)) (fs.write m.output _) m.output write_self
  obtain ⟨hv, hlen⟩ := loadPatterns_ok h3
  have hne : patterns ≠ [] := by
    rintro rfl
    exact hp (List.length_eq_zero_iff.1 hlen.symm)
  obtain ⟨re', hr, hm⟩ := C53_mine patterns hne fun r hr => by
    rw [Regex.new, hv r hr]
    rfl
  rw [h4] at hr
  cases hr
  obtain ⟨_, hc2, hc3, _, hc5⟩ := (C47_mine _ _ _ laws.byFreq _ _).2 _ h5
  have hmem : ∀ s, s ∈ samples ↔ ∃ source ∈ train, s ∈ source.processedSamples := by
    intro s
    rw [List.Perm.mem_iff h2, List.mem_flatMap]
  refine ⟨train, patterns, _, h1, h3, hl.1, ?_, ?_⟩
  · intro w hw
    obtain ⟨⟨w', n⟩, hin, rfl⟩ := List.mem_map.1 hw
    obtain ⟨hn, hpos⟩ := hc3 _ _ hin
    rw [hn] at hpos
    obtain ⟨s, hs, hws⟩ := mem_of_matchCount hpos
    obtain ⟨before, after, e, hmt⟩ := find.sound _ _ _ hws
    obtain ⟨source, hsrc, hs'⟩ := (hmem s).1 hs
    exact ⟨source, hsrc, s, hs', before, after, e, (hm _ _ _).1 hmt⟩
  · rintro hpos ⟨source, hsrc, sample, hs, r, hr, before, w, after, e, hmt⟩ hnil
    have hf := find.found re sample ⟨before, w, after, e, (hm _ _ _).2 ⟨r, hr, hmt⟩⟩
    obtain ⟨w', hw'⟩ := List.exists_mem_of_ne_nil _ hf
    have h6 := (hc5 w' (matchCount_pos ((hmem sample).2 ⟨source, hsrc, hs⟩) hw') (by rw [hnil]; simp)).1
    rw [List.map_eq_nil_iff.1 hnil] at h6
    simp at h6
    omega

/-! ### C73: histories -/

omit [TrainOps F] [Mul F] in
theorem complete_reloaded {N : NumText F} {v w : List (ScoredToken F)} (h : List.Forall₂ (Reloaded N) v w) (hc : Complete v) :
    Complete w := by
  intro b hb
  obtain ⟨t, ht, e1, e2⟩ := hc b hb
  obtain ⟨i, hi⟩ := List.mem_iff_getElem?.1 ht
  obtain ⟨u, hu, hr⟩ := forall₂_left h hi
  exact ⟨u, List.mem_of_getElem? hu, hr.1.trans e1, hr.2.1.trans e2⟩

omit [TrainOps F] [Mul F] in
/-- A text that begins with a caret is no JSON. -/
theorem read_caret (N : NumText F) (rest : Str) : Json.read N ('^' :: rest) = none := by
  have h1 : Json.skip ('^' :: rest) = '^' :: rest := Json.skip_start (by decide)
  have h2 : Json.readNumber N ('^' :: rest) = none := by
    unfold Json.readNumber Json.readNum
    have : Json.numSign ('^' :: rest) = (false, '^' :: rest) := rfl
    rw [this]
    have : Json.readDigits ('^' :: rest) = ([], '^' :: rest) := by
      rw [Json.readDigits]
      rfl
    simp only [this]
    rfl
  unfold Json.read
  rw [Json.readValue]
  simp only [h1, h2]
  rfl

omit [TrainOps F] [Mul F] in
theorem read_empty (N : NumText F) : Json.read N [] = none := rfl

/-- What `regex` writes begins with a caret, or is empty. -/
theorem regexCmd_caret {names : List Str} {contents : List UInt8} (h : regexCmd names = .ok contents) :
    ∃ text, contents = enc text ∧ (text = [] ∨ ∃ rest, text = '^' :: rest) := by
  unfold regexCmd at h
  obtain ⟨regexes, h1, h2⟩ := bind_ok h
  obtain ⟨re, h3, h4⟩ := bind_ok h2
  cases h4
  refine ⟨re.text, rfl, ?_⟩
  have := (Regex.new_some (unwrap_ok h3)).1
  rw [this]
  cases regexes with
  | nil => exact .inl rfl
  | cons r rs =>
    right
    cases rs with
    | nil => exact ⟨_, rfl⟩
    | cons r' rs' => exact ⟨_, rfl⟩

omit [TrainOps F] [Mul F] in
/-- No file that `regex` wrote, or began to write, loads as a tokenizer. -/
theorem regex_no_tokenizer {N : NumText F} {names : List Str} {contents : List UInt8} (h : regexCmd names = .ok contents)
    (k : Nat) {fs : Files} {path : Str} (hf : fs path = some (contents.take k)) (t : Tokenizer F) :
    fromFile N fs path ≠ .ok t := by
  intro ht
  obtain ⟨text, h1, h2⟩ := regexCmd_caret h
  subst h1
  obtain ⟨p, h3, h4⟩ := fromFile_ok ht
  rw [hf] at h3
  obtain ⟨q, e, _⟩ := take_enc (Option.some.inj h3)
  have hr : Json.read N p = none := by
    cases p with
    | nil => rfl
    | cons c p =>
      rcases h2 with h2 | ⟨rest, h2⟩
      · rw [h2] at e; cases e
      · rw [h2, List.cons_append] at e
        rw [← (List.cons.inj e).1]
        exact read_caret N p
  unfold Tokenizer.fromStr at h4
  rw [hr] at h4
  cases h4

/-- Every tokenizer that a command leaves in its output has every byte as a protected token, if its input has. -/
theorem writes_complete (env : Env F) (laws : EnvLaws env) {cmd : Command F} {fs : Files} {contents : List UInt8}
    (hinv : ∀ path t, fromFile env.numbers fs path = .ok t → Complete t.model.vocab) (hsafe : Safe env fs cmd)
    (hw : Writes env cmd fs contents) (k : Nat) {fs' : Files} {path : Str} (hf : fs' path = some (contents.take k))
    {u : Tokenizer F} (hu : fromFile env.numbers fs' path = .ok u) : Complete u.model.vocab := by
  by_cases hregex : ∃ a, cmd = .regex a
  · obtain ⟨a, rfl⟩ := hregex
    exact absurd hu (regex_no_tokenizer hw k hf u)
  have hcmd : ∀ a, cmd ≠ .regex a := fun a e => hregex ⟨a, e⟩
  by_cases hk : k < contents.length
  · exfalso
    obtain ⟨style, j, hd, rfl⟩ := writes_truncated env hcmd hw
    obtain ⟨text, h1, h2⟩ := fromFile_ok hu
    rw [hf] at h1
    have hr := h2
    unfold Tokenizer.fromStr at hr
    obtain ⟨y, hy, _⟩ := Option.bind_eq_some_iff.1 hr
    obtain ⟨x, rfl⟩ := truncated laws.numbers hd hk (Option.some.inj h1) hy
    rw [fromStr_num hy] at h2
    cases h2
  rw [List.take_of_length_le (by omega)] at hf
  have key : ∀ {t : Tokenizer F} {w : List (ScoredToken F)}, HoldsRevised env.numbers contents t w → Complete w →
      Complete u.model.vocab := fun h hc => complete_reloaded ((h fs' path hf).2 u hu).2.2 hc
  cases cmd with
  | generate a =>
    obtain ⟨vocab, _, _, _, _, _, _, _, _, _, _, h7, _, _, h10⟩ := C71_generate env laws a fs contents hw
    exact complete_reloaded ((h10 fs' path hf).2 u hu).2.2 h7
  | prune a =>
    have hw' := hw
    obtain ⟨t, _, _, _, ht, _⟩ := hw'
    obtain ⟨w, h1, _, h3⟩ := C71_prune env laws a fs contents hw t ht (hsafe t ht)
    refine key h3 fun b hb => ?_
    obtain ⟨x, hx, e1, e2⟩ := hinv _ t ht b hb
    obtain ⟨y, hy, e3, e4⟩ := prunedTo_keep h1 hx e2
    exact ⟨y, hy, e3.trans e1, e4⟩
  | filter a =>
    have hw' := hw
    obtain ⟨t, _, ht, _⟩ := hw'
    obtain ⟨w, removed, h1, _, h2, h3⟩ := C71_filter env laws a fs contents hw t ht
    refine key h3 fun b hb => ?_
    obtain ⟨x, hx, e1, e2⟩ := hinv _ t ht b hb
    rcases List.mem_append.1 (h1.subset hx) with hx' | hx'
    · exact ⟨x, hx', e1, e2⟩
    · have := (h2 x hx').1 e2
      rw [show a.force = false from hsafe] at this
      cases this
  | merge a =>
    have hw' := hw
    obtain ⟨t, _, _, _, _, _, _, _, _, ht, _⟩ := hw'
    obtain ⟨added, re, _, _, _, h3⟩ := C71_merge env laws a fs contents hw t ht
    refine key h3 fun b hb => ?_
    obtain ⟨x, hx, e⟩ := hinv _ t ht b hb
    exact ⟨x, List.mem_append_left _ hx, e⟩
  | regex a => exact absurd rfl (hcmd a)
  | mine a =>
    exfalso
    obtain ⟨_, _, _, _, idioms, _, _, _, _, _, _, _, rfl⟩ := hw
    rw [fromFile_enc env.numbers hf] at hu
    have := unwrap_ok hu
    unfold Tokenizer.fromStr at this
    rw [Json.read_write env.numbers laws.numbers .pretty _ (nesting_strings _), stringsJson, seen] at this
    cases hs : seenItems env.numbers ((idioms.map (·.1)).map (.str : Str → Json Str F)) with
    | none => rw [hs] at this; cases this
    | some x => rw [hs] at this; cases this

theorem event_complete (env : Env F) (laws : EnvLaws env) {fs fs' : Files} (h : Event env fs fs')
    (hinv : ∀ path t, fromFile env.numbers fs path = .ok t → Complete t.model.vocab) :
    ∀ path t, fromFile env.numbers fs' path = .ok t → Complete t.model.vocab := by
  have hwrite : ∀ (cmd : Command F) (contents : List UInt8) (k : Nat), Safe env fs cmd → Writes env cmd fs contents →
      ∀ path t, fromFile env.numbers (fs.write cmd.output (contents.take k)) path = .ok t → Complete t.model.vocab := by
    intro cmd contents k hsafe hw path t ht
    by_cases hp : path = cmd.output
    · subst hp
      exact writes_complete env laws hinv hsafe hw k write_self ht
    · exact hinv path t (by rw [← ht]; exact fromFile_congr _ (write_other hp).symm)
  cases h with
  | runs cmd hsafe hr =>
    obtain ⟨contents, hw, rfl⟩ := hr
    have := hwrite cmd contents contents.length hsafe hw
    rwa [List.take_length] at this
  | stops cmd hsafe hr =>
    rcases hr with rfl | ⟨contents, k, hw, rfl⟩
    · exact hinv
    · exact hwrite cmd contents k hsafe hw
  | copy src dst =>
    intro path t ht
    by_cases hp : path = dst
    · exact hinv src t (by rw [← ht]; exact fromFile_congr _ (by simp [hp]))
    · exact hinv path t (by rw [← ht]; exact fromFile_congr _ (by simp [hp]))
  | remove p =>
    intro path t ht
    by_cases hp : path = p
    · unfold fromFile readToString at ht
      simp only [hp, if_pos] at ht
      cases ht
    · exact hinv path t (by rw [← ht]; exact fromFile_congr _ (by simp [hp]))
  | put p contents hput =>
    intro path t ht
    by_cases hp : path = p
    · subst hp
      exact hput t ht
    · exact hinv path t (by rw [← ht]; exact fromFile_congr _ (write_other hp).symm)

omit [Mul F] in
/-- A tokenizer that has every byte encodes every text. -/
theorem encode_total (norm : UnicodeForm → Str → Str) {t : Tokenizer F} (hwf : t.WF) (hc : Complete t.model.vocab)
    (hne : [] ∉ t.specialTokens) (s : Str) (dropout : F) (rnd : Nat → F) : ∃ ids, t.encode norm s dropout rnd = .ok ids := by
  obtain ⟨pieces, h1, h2⟩ := Tokenizer.encodeFuel_eq norm t hne dropout rnd s (s.length + 1) (by omega)
  unfold Tokenizer.encode
  rw [h2]
  have hsp : ∀ p ∈ pieces, p.2 = true → p.1 ∈ t.specialTokens := by
    intro p hp hb
    obtain ⟨pre, post, e⟩ := List.append_of_mem hp
    obtain ⟨p1, p2⟩ := p
    simp only at hb
    subst hb
    obtain ⟨_, before, after, e', _⟩ := h1.special pre p1 post e
    rw [e']
    simp
  clear h1 h2
  have : ∀ (pieces : List (Str × Bool)) (k : Nat) (acc : List Nat), (∀ p ∈ pieces, p.2 = true → p.1 ∈ t.specialTokens) →
      ∃ ids, Tokenizer.runPieces norm t dropout rnd pieces k acc = .ok ids := by
    intro pieces
    induction pieces with
    | nil => intro k acc _; exact ⟨acc, rfl⟩
    | cons p pieces ih =>
      intro k acc h
      unfold Tokenizer.runPieces
      have : ∃ r, t.encodePiece norm p dropout (fun j => rnd (k + j)) = .ok r := by
        unfold Tokenizer.encodePiece
        by_cases hb : p.2 = true
        · rw [if_pos hb]
          obtain ⟨i, hi⟩ := List.mem_iff_getElem?.1 (h p (by simp) hb)
          rw [(hwf.map p.1 i).2 hi]
          exact ⟨_, rfl⟩
        · rw [if_neg hb]
          obtain ⟨ids, h3⟩ := C04_dropout_total t.model.vocab (t.preprocess norm p.1) dropout (fun j => rnd (k + j))
            (fun b hb => by
              obtain ⟨x, hx, e, _⟩ := hc b (enc_ne_255 _ b hb)
              exact ⟨x, hx, e⟩)
          rw [hwf.model]
          obtain ⟨n, h4⟩ := encode_ok_iff.1 h3
          exact ⟨_, h4⟩
      obtain ⟨r, hr⟩ := this
      rw [hr]
      exact ih _ _ fun q hq => h q (by simp [hq])
  exact this pieces 0 [] hsp

/-- **C73** Start from any files among which every tokenizer has all bytes as protected tokens (for example none at all).
Let any sequence of commands run with any arguments, stop at any point, with files copied, removed and brought in.  Then
every tokenizer that loads encodes every text, with any dropout and any random numbers, and decodes it back to the processed
text; and `encode`, which looks for special tokens, succeeds unless the empty string is one of them. -/
theorem C73_history (env : Env F) (laws : EnvLaws env) (fs₀ fs : Files)
    (hstart : ∀ path t, fromFile env.numbers fs₀ path = .ok t → Complete t.model.vocab)
    (h : ReflTransGen (Event env) fs₀ fs) (path : Str) (t : Tokenizer F) (ht : fromFile env.numbers fs path = .ok t)
    (norm : UnicodeForm → Str → Str) (s : Str) (dropout : F) (rnd : Nat → F) :
    (∃ ids, t.encodeOrdinary norm s dropout rnd = .ok ids ∧
      ∀ flag, t.decode ids flag = .ok (t.processors.foldl (fun s p => p.preprocess norm s) s)) ∧
    ([] ∉ t.specialTokens → ∃ ids, t.encode norm s dropout rnd = .ok ids) := by
  have hc : Complete t.model.vocab := by
    have : ∀ path t, fromFile env.numbers fs path = .ok t → Complete t.model.vocab := by
      clear ht
      induction h with
      | refl => exact hstart
      | tail _ h2 ih => exact event_complete env laws h2 ih
    exact this path t ht
  obtain ⟨text, _, hs⟩ := fromFile_ok ht
  obtain ⟨hwf, _⟩ := fromStr_plain hs
  refine ⟨?_, fun hne => encode_total norm hwf hc hne s dropout rnd⟩
  have hb : Tokenizer.build t.model.vocab t.processors t.specialTokens [] = t := hwf.rebuild
  have h26 := fun flag => C26_processors norm t.model.vocab t.processors t.specialTokens [] s dropout rnd flag
  simp only [hb] at h26
  obtain ⟨ids, hids⟩ := C04_dropout_total t.model.vocab (t.processors.foldl (fun s p => p.preprocess norm s) s) dropout rnd
    (fun b hb => by
      obtain ⟨x, hx, e, _⟩ := hc b (enc_ne_255 _ b hb)
      exact ⟨x, hx, e⟩)
  have h1 := (h26 true).1
  have hg : givenBase t.model.vocab ([] : List (Tokenizer.Op F)) = t.model.vocab := by simp [givenBase]
  rw [hg, hids] at h1
  exact ⟨ids, h1, fun flag => (h26 flag).2 ids h1⟩

/-! ### Non-vacuity -/

section
attribute [local instance] toyOps

/-- The surroundings used in the examples. -/
def toyEnv : Env Int where
  norm := fun _ s => s
  parse := fun _ => none
  numbers := intNumbers
  fancy := fun _ => none
  findIter := fun _ s => [s]
  shard := fun _ => 0
  ninf := -1000000
  shrink := fun _ n => n / 2
  byFreq := insertSorter _
  byScore := insertSorter _
  byPairs := insertSorter _
  std := listStd Int

theorem toyEnv_laws : EnvLaws toyEnv :=
  ⟨intNumbers_prints, insertSorter_laws _, insertSorter_laws _, insertSorter_laws _, listStd_laws⟩

/-- A saved tokenizer over the integers loads. -/
theorem toy_loads {t : Tokenizer Int} (h : t.WF) (hp : ∀ s ∈ t.specialTokens, Tokenizer.Plain s) {fs : Files} {path : Str}
    (hf : fs path = some (saved intNumbers t)) : fromFile intNumbers fs path = .ok t := by
  rw [fromFile_enc _ hf, Tokenizer.fileContents, fromStr_write _ intNumbers_prints, if_pos hp]
  have : ∀ l : List (ScoredToken Int), (l.mapM fun t => (reread intNumbers t.score).map fun y => { t with score := y }) = some l := by
    intro l
    induction l with
    | nil => rfl
    | cons a l ih => rw [List.mapM_cons, ih, intNumbers_reread]; rfl
  rw [this, Option.map_some, h.rebuild]
  rfl

/-- C70: a saved tokenizer, cut after 40 bytes. -/
example : fromFile intNumbers (fun _ => some ((saved intNumbers exTok).take 40)) [] = .error .panic :=
  C70_save _ intNumbers_prints _ 40 (by decide +kernel) _ _ rfl

/-- What the examples start from: a text, an allow pattern, and a tokenizer that knows `a`, `b` (protected), `ab`, `ba`, `aba`. -/
def toyFiles : Files := fun p =>
  if p = "text".toList then some (enc "a\x00a\x00b\x00b\x00ab\x00ab\x00ab\x00ba".toList)
  else if p = "allow".toList then some (enc "^(?:[ab]+)$".toList)
  else if p = "tok".toList then some (saved intNumbers (Tokenizer.build pruneVocabulary [.crlf] [['<', 'e', '>']] []))
  else none

theorem toyFiles_tok : fromFile toyEnv.numbers toyFiles "tok".toList =
    .ok (Tokenizer.build pruneVocabulary [.crlf] [['<', 'e', '>']] []) :=
  toy_loads (Tokenizer.wf_build _ _ _ _) (by decide) rfl

theorem toyFiles_text : ∃ train, Source.loadAll toyEnv.norm toyFiles toyEnv.parse [.crlf] ["x:text".toList] = .ok train ∧
    Source.Shuffled train toySamples := by
  have h : (Source.loadAll toyEnv.norm toyFiles toyEnv.parse [.crlf] ["x:text".toList]).map
      (fun train => train.flatMap Source.processedSamples) = .ok toySamples := by decide +kernel
  cases hl : Source.loadAll toyEnv.norm toyFiles toyEnv.parse [.crlf] ["x:text".toList] with
  | error e => rw [hl] at h; cases h
  | ok train =>
    rw [hl] at h
    exact ⟨train, rfl, by unfold Source.Shuffled; rw [← Except.ok.inj h]⟩

/-- C71: filtering the five tokens to three. -/
example : ∃ contents, Filters toyEnv ⟨"tok".toList, "out".toList, 3, some 0, false⟩ toyFiles contents := by
  obtain ⟨kept, _, h, _⟩ := C39_filter (fun _ => True) int_order (⟨3, some 0, false⟩ : VocabularyFilter Int) (-1000000)
    (insertSorter _) (insertSorter_laws _) pruneVocabulary (by simp) (by decide)
  exact ⟨_, _, _, toyFiles_tok, h, rfl⟩

/-- C71: pruning the five tokens to three. -/
example : ∃ contents, Prunes toyEnv ⟨"tok".toList, "out".toList, 3, ["x:text".toList], 0, 0, 0⟩ toyFiles contents := by
  obtain ⟨train, h1, h2⟩ := toyFiles_text
  refine ⟨_, _, train, toySamples, Model.from_ [⟨[97, 98], -2, false⟩, ⟨[97], -3, true⟩, ⟨[98], -3, true⟩], toyFiles_tok, h1, h2, ?_, rfl⟩
  exact ⟨.single ⟨by decide, _, .zero _, toy_step⟩, by decide⟩

theorem toyFiles_allow : ∃ re, regexFile toyFiles "allow".toList = .ok re := by
  have : (regexFile toyFiles "allow".toList).map Regex.text = .ok "^(?:[ab]+)$".toList := by decide +kernel
  cases h : regexFile toyFiles "allow".toList with
  | error e => rw [h] at this; cases this
  | ok re => exact ⟨re, rfl⟩

/-- C71: merging. -/
example : ∃ contents, Merges toyEnv ⟨"tok".toList, "out".toList, ["x:text".toList], "allow".toList, 2, 1, 1, 8⟩
    toyFiles contents := by
  obtain ⟨train, h1, h2⟩ := toyFiles_text
  obtain ⟨listing, hl⟩ := Merger.listings_exist (F := Int) (fun _ => 0) (insertSorter _) toySamples
  obtain ⟨re, hre⟩ := toyFiles_allow
  obtain ⟨fuel, m', hm⟩ := (C42_merge_partial (⟨re.isMatch, 2, 1, 1, 8⟩ : Merger Int) (fun _ => 0) (insertSorter _)
    (insertSorter_laws _) toySamples listing hl pruneVocabulary (by
      intro s hs
      simp only [toySamples, List.mem_cons, List.not_mem_nil, or_false] at hs
      unfold BytesCovered
      rcases hs with rfl | rfl | rfl | rfl | rfl | rfl | rfl | rfl <;> decide)).2 (Nat.le_refl 1)
  exact ⟨_, _, train, toySamples, re, fun _ => 0, listing, fuel, m', by simp, toyFiles_tok, h1, h2, hre, hl,
    hm fuel (Nat.le_refl _), rfl⟩

/-- The vocabulary generated from nothing: the bytes. -/
theorem toy_generated (g : Generator Int) (hg : g.frequencies = [] ∧ g.addedTokens = [] ∧ g.suggestedTokens = []) :
    ∃ vocab, Generator.Generate g (insertSorter _) (insertSorter _) 300 vocab := by
  obtain ⟨h1, h2, h3⟩ := hg
  have h : ((Generator.new 8 (0 : Int) none none [] []).generateFrom (insertSorter _) (insertSorter _) 300 []).isOk = true := by
    decide +kernel
  have e : g.generateFrom (insertSorter _) (insertSorter _) 300 [] =
      (Generator.new 8 (0 : Int) none none [] []).generateFrom (insertSorter _) (insertSorter _) 300 [] := by
    unfold Generator.generateFrom
    rw [h1, h2, h3]
    rfl
  rw [← e] at h
  cases hv : g.generateFrom (insertSorter _) (insertSorter _) 300 [] with
  | error e => rw [hv] at h; cases h
  | ok vocab => exact ⟨vocab, [], by rw [h1], hv⟩

/-- The flags of the `generate` command of the examples. -/
def toyGenerate : GenerateArgs Int where
  output := "new".toList
  vocabSize := 300
  train := []
  processors := ["crlf".toList]
  special := ["<e>".toList]
  suggested := []
  added := []
  split := none
  allow := some "words".toList
  insertProbability := 1
  maxTokenLength := 8

/-- C72, C73: from no files at all, `regex` with the pattern `word`, then `generate`; the
resulting file loads. -/
example : ∃ fs fs' t, Runs toyEnv (.regex ⟨"words".toList, ["word".toList]⟩) (fun _ => none) fs ∧
    Runs toyEnv (.generate toyGenerate) fs fs' ∧ ReflTransGen (Event toyEnv) (fun _ => none) fs' ∧
    fromFile toyEnv.numbers fs' "new".toList = .ok t ∧ [] ∉ t.specialTokens := by
  obtain ⟨file, hfile, _⟩ := C68_command ["word".toList] (by simp) (by
    intro n hn
    rw [List.mem_singleton.1 hn]
    exact (by decide +kernel : ∃ p ∈ NamedPattern.table, p.name = "word".toList))
  have hr : Runs toyEnv (.regex ⟨"words".toList, ["word".toList]⟩) (fun _ => none) (Files.write (fun _ => none) "words".toList file) :=
    ⟨file, hfile, rfl⟩
  have hload : ∃ re, regexFile (Files.write (fun _ => none) "words".toList file) "words".toList = .ok re := by
    have hf : regexCmd ["word".toList] = .ok (enc "^(?:[A-Za-z]+)$".toList) := by decide +kernel
    rw [hfile] at hf
    rw [Except.ok.inj hf]
    have : (regexFile (Files.write (fun _ => none) "words".toList (enc "^(?:[A-Za-z]+)$".toList)) "words".toList).map Regex.text =
      .ok "^(?:[A-Za-z]+)$".toList := by decide +kernel
    cases h : regexFile (Files.write (fun _ => none) "words".toList (enc "^(?:[A-Za-z]+)$".toList)) "words".toList with
    | error e => rw [h] at this; cases this
    | ok re => exact ⟨re, rfl⟩
  obtain ⟨re, hre⟩ := hload
  obtain ⟨vocab, hv⟩ := toy_generated (Generator.new 8 (1 : Int) none (some re.isMatch) [] []) ⟨rfl, rfl, rfl⟩
  have hg : Runs toyEnv (.generate toyGenerate) (Files.write (fun _ => none) "words".toList file)
      ((Files.write (fun _ => none) "words".toList file).write "new".toList
        (saved intNumbers (Tokenizer.new (Model.from_ vocab) [.crlf] ["<e>".toList]))) := by
    refine ⟨_, ⟨[.crlf], [], some re, none, [], [], _, vocab, by decide, rfl, ?_, rfl, rfl, rfl, .nil _, hv, rfl⟩, rfl⟩
    show (regexFile _ "words".toList).map some = _
    rw [hre]
    rfl
  refine ⟨_, _, Tokenizer.new (Model.from_ vocab) [.crlf] ["<e>".toList], hr, hg, ?_, ?_, ?_⟩
  · refine .tail (.single (.runs (.regex ⟨"words".toList, ["word".toList]⟩) trivial hr)) (.runs (.generate toyGenerate) trivial hg)
  · refine toy_loads (Tokenizer.WF.new _ _ _) ?_ write_self
    rw [Tokenizer.new_specialTokens _ _ _ (by simp)]
    decide
  · rw [Tokenizer.new_specialTokens _ _ _ (by simp)]
    decide

/-- C74: `mine` on the text, with a findings function that takes samples as a whole. -/
example : ∃ contents, Mines toyEnv ⟨5, "idioms".toList, ["x:text".toList], ["word".toList]⟩ toyFiles contents := by
  have h : (Source.loadAll toyEnv.norm toyFiles toyEnv.parse [] ["x:text".toList]).isOk = true := by decide +kernel
  have hp : (loadPatterns ["word".toList] >>= buildMineRegex).isOk = true := by decide +kernel
  cases hl : Source.loadAll toyEnv.norm toyFiles toyEnv.parse [] ["x:text".toList] with
  | error e => rw [hl] at h; cases h
  | ok train =>
    cases hq : loadPatterns ["word".toList] with
    | error e => rw [hq] at hp; cases hp
    | ok patterns =>
      rw [hq] at hp
      cases hb : buildMineRegex patterns with
      | error e => rw [show (Except.ok patterns >>= buildMineRegex) = buildMineRegex patterns from rfl, hb] at hp; cases hp
      | ok re =>
        obtain ⟨idioms, hm⟩ := (C47_mine (toyEnv.findIter re) toyEnv.shard toyEnv.byFreq (insertSorter_laws _) 5
          (train.flatMap Source.processedSamples)).1
        exact ⟨_, train, _, patterns, re, idioms, by simp, by simp, hl, .refl _, hq, hb, hm, rfl⟩


open Classical in
/-- A search that yields one match if there is any. -/
noncomputable def findOne (r : Regex) (s : Str) : List Str :=
  if h : MatchesIn r.re s then [h.choose_spec.choose] else []

theorem findOne_laws : FindLaws findOne := by
  constructor
  · intro r s w hw
    unfold findOne at hw
    by_cases h : MatchesIn r.re s
    · rw [dif_pos h, List.mem_singleton] at hw
      obtain ⟨after, h1⟩ := h.choose_spec.choose_spec
      exact ⟨_, after, by rw [hw]; exact h1⟩
    · rw [dif_neg h] at hw
      cases hw
  · intro r s h
    unfold findOne
    rw [dif_pos h]
    simp

/-- C74: mining the sample texts with the pattern `word`; the pattern does match. -/
example : ∃ env : Env Int, EnvLaws env ∧ FindLaws env.findIter ∧
    (∃ fs', Runs env (.mine ⟨2, "idioms".toList, ["x:text".toList], ["word".toList]⟩) toyFiles fs') ∧
    ∃ train patterns, Source.loadAll env.norm toyFiles env.parse [] ["x:text".toList] = .ok train ∧
      loadPatterns ["word".toList] = .ok patterns ∧
      ∃ source ∈ train, ∃ sample ∈ source.processedSamples, ∃ r ∈ patterns, MatchesIn r.re sample := by
  let env : Env Int := { toyEnv with findIter := findOne }
  have hl : (Source.loadAll env.norm toyFiles env.parse [] ["x:text".toList]).map
      (fun train => train.map Source.processedSamples) = .ok [toySamples] := by decide +kernel
  have hp : (loadPatterns ["word".toList]).map (fun l => l.map fun r => (r.text, r.isMatch ['a'])) =
      .ok [("[A-Za-z]+".toList, true)] := by decide +kernel
  cases hl' : Source.loadAll env.norm toyFiles env.parse [] ["x:text".toList] with
  | error e => rw [hl'] at hl; cases hl
  | ok train =>
    cases hp' : loadPatterns ["word".toList] with
    | error e => rw [hp'] at hp; cases hp
    | ok patterns =>
      rw [hl'] at hl
      rw [hp'] at hp
      have hl2 := Except.ok.inj hl
      have hp2 := Except.ok.inj hp
      match train, hl2 with
      | [source], hl2 =>
        match patterns, hp2 with
        | [r], hp2 =>
          simp only [List.map_cons, List.map_nil, List.cons.injEq, and_true] at hl2 hp2
          have hm : r.isMatch ['a'] = true := (Prod.mk.inj hp2).2
          obtain ⟨hv, _⟩ := loadPatterns_ok hp'
          obtain ⟨re, hre, _⟩ := C53_mine [r] (by simp) fun x hx => by
            rw [Regex.new, hv x hx]
            rfl
          obtain ⟨result, hr⟩ := (C47_mine (env.findIter re) env.shard env.byFreq (insertSorter_laws _) 2 source.processedSamples).1
          refine ⟨env, ⟨toyEnv_laws.numbers, toyEnv_laws.byFreq, toyEnv_laws.byScore, toyEnv_laws.byPairs, toyEnv_laws.std⟩,
            findOne_laws, ⟨_, _, ⟨_, _, _, _, _, by simp, by simp, hl', ?_, hp', hre, hr, rfl⟩, rfl⟩, _, _, hl', rfl, source,
            by simp, ['a'], ?_, r, by simp, (C53_isMatch _ _).1 hm⟩
          · unfold Source.Shuffled
            simp
          · rw [hl2]
            decide

end
end Tokengeex

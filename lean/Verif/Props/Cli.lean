import Verif.Proofs.Cli
/-
C70 to C74: what the commands leave in files, whatever happens.
-/
namespace Tokengeex
open Spec Cli ScoreOps

variable {F : Type}

/-! ### C70: interrupted writes -/

/-- **C70** Whatever tokenizer is saved and after however many bytes the save is interrupted, what is left in the file does
not load. -/
theorem C70_save (N : NumText F) (hN : PrintsNumbers N) (t : Tokenizer F) (k : Nat) (hk : k < (saved N t).length) (fs : Files)
    (path : Str) (hfile : fs path = some ((saved N t).take k)) : fromFile N fs path = .error .panic := by
  rcases fromFile_or (N := N) (fs := fs) (path := path) with ⟨u, hu⟩ | h
  · exfalso
    obtain ⟨text, h1, h2⟩ := fromFile_ok hu
    rw [hfile] at h1
    have hr := h2
    unfold Tokenizer.fromStr at hr
    obtain ⟨y, hy, _⟩ := Option.bind_eq_some_iff.1 hr
    obtain ⟨x, rfl⟩ := truncated hN (by have := Tokenizer.nesting_toJson t; omega) hk (Option.some.inj h1) hy
    rw [fromStr_num hy] at h2
    cases h2
  · exact h

theorem nesting_strings (l : List Str) : nesting (stringsJson l : Json Str F) < 128 := by
  have : ∀ l : List Str, nestingItems (l.map fun s => (.str s : Json Str F)) = 0 := by
    intro l
    induction l with
    | nil => rfl
    | cons a l ih => rw [List.map_cons, nestingItems, ih, nesting]; rfl; all_goals simp
  show nesting (Json.arr (l.map fun s => (.str s : Json Str F))) < 128
  rw [nesting, this l]
  decide

theorem mapM_res_mem {α β : Type} {f : α → Res β} : ∀ {l : List α} {r : List β}, l.mapM f = .ok r → ∀ a ∈ l, ∃ b ∈ r, f a = .ok b
  | [], _, _, a, ha => by simp at ha
  | x :: l, r, h, a, ha => by
    rw [List.mapM_cons] at h
    obtain ⟨b, h1, h2⟩ := bind_ok h
    obtain ⟨bs, h3, h4⟩ := bind_ok h2
    cases h4
    rcases List.mem_cons.1 ha with rfl | ha
    · exact ⟨b, by simp, h1⟩
    · obtain ⟨b', hb, e⟩ := mapM_res_mem h3 a ha
      exact ⟨b', by simp [hb], e⟩

/-- **C70** Whatever list of strings `mine` writes and after however many bytes it is interrupted, no command accepts what is
left as a list of added or suggested tokens. -/
theorem C70_idioms (N : NumText F) (hN : PrintsNumbers N) (idioms : List Str) (k : Nat)
    (hk : k < (enc (Json.write N .pretty 0 (stringsJson idioms))).length) (fs : Files) (path : Str) (paths : List Str)
    (hpath : path ∈ paths) (hfile : fs path = some ((enc (Json.write N .pretty 0 (stringsJson idioms))).take k)) (l : List Str) :
    loadTokens N fs paths ≠ .ok l := by
  intro h
  unfold loadTokens at h
  obtain ⟨lists, h1, _⟩ := bind_ok h
  obtain ⟨b, _, h2⟩ := mapM_res_mem h1 path hpath
  obtain ⟨text, h3, h4⟩ := bind_ok h2
  unfold readToString at h3
  rw [hfile] at h3
  have h5 := fromUtf8_iff.1 (unwrap_ok h3)
  have h6 := unwrap_ok h4
  unfold stringsOf at h6
  obtain ⟨y, hy, h7⟩ := Option.bind_eq_some_iff.1 h6
  obtain ⟨x, rfl⟩ := truncated hN (nesting_strings idioms) hk h5 hy
  cases h7

/-- The file systems agree except at one path. -/
theorem write_other {fs : Files} {path p : Str} {contents : List UInt8} (h : p ≠ path) : fs.write path contents p = fs p := by
  unfold Files.write
  rw [if_neg h]

theorem write_self {fs : Files} {path : Str} {contents : List UInt8} : fs.write path contents path = some contents := by
  unfold Files.write
  rw [if_pos rfl]

theorem regexFile_empty {fs : Files} {path : Str} (h : fs path = some []) :
    ∃ r, regexFile fs path = .ok r ∧ ∀ s, r.isMatch s = true := by
  have e : loadRegex [] = .ok ⟨[], .empty⟩ := by decide +kernel
  refine ⟨_, by rw [regexFile, h]; exact e, fun s => ?_⟩
  rw [C53_isMatch]
  exact ⟨[], [], s, by simp, by simp [Matches]⟩

variable [TrainOps F] [Mul F]

/-- The contents that a command other than `regex` writes, cut short, load neither as a tokenizer nor as a list of tokens. -/
theorem writes_truncated (env : Env F) {cmd : Command F} (hcmd : ∀ a, cmd ≠ .regex a)
    {fs : Files} {contents : List UInt8} (hw : Writes env cmd fs contents) :
    ∃ style j, nesting j < 128 ∧ contents = enc (Json.write env.numbers style 0 j) := by
  have ht : ∀ t : Tokenizer F, ∃ style j, nesting j < 128 ∧ saved env.numbers t = enc (Json.write env.numbers style 0 j) :=
    fun t => ⟨.pretty, t.toJson, by have := Tokenizer.nesting_toJson t; omega, rfl⟩
  cases cmd with
  | generate a => obtain ⟨_, _, _, _, _, _, _, _, _, _, _, _, _, _, _, _, rfl⟩ := hw; exact ht _
  | prune a => obtain ⟨_, _, _, _, _, _, _, _, rfl⟩ := hw; exact ht _
  | filter a => obtain ⟨_, _, _, _, rfl⟩ := hw; exact ht _
  | merge a => obtain ⟨_, _, _, _, _, _, _, _, _, _, _, _, _, _, _, rfl⟩ := hw; exact ht _
  | regex a => exact absurd rfl (hcmd a)
  | mine a =>
    obtain ⟨_, _, _, _, idioms, _, _, _, _, _, _, _, rfl⟩ := hw
    exact ⟨_, _, nesting_strings _, rfl⟩

/-- **C70** If a command stops for whatever reason at whatever point, every file but its output is as it was; and its output
is as it was, or complete, or (unless the command is `regex`) something that neither loads as a tokenizer nor as a list of
tokens. -/
theorem C70_stops (env : Env F) (hN : PrintsNumbers env.numbers) (cmd : Command F) (hcmd : ∀ a, cmd ≠ .regex a)
    (fs fs' : Files) (h : Stops env cmd fs fs') :
    (∀ p, p ≠ cmd.output → fs' p = fs p) ∧
    (fs' = fs ∨ Runs env cmd fs fs' ∨
      (fromFile env.numbers fs' cmd.output = .error .panic ∧
        ∀ paths l, cmd.output ∈ paths → loadTokens env.numbers fs' paths ≠ .ok l)) := by
  rcases h with rfl | ⟨contents, k, hw, rfl⟩
  · exact ⟨fun _ _ => rfl, .inl rfl⟩
  refine ⟨fun p hp => write_other hp, .inr ?_⟩
  by_cases hk : k < contents.length
  · right
    obtain ⟨style, j, hd, rfl⟩ := writes_truncated env hcmd hw
    refine ⟨?_, ?_⟩
    · rcases fromFile_or (N := env.numbers)
          (fs := fs.write cmd.output ((enc (Json.write env.numbers style 0 j)).take k)) (path := cmd.output) with ⟨u, hu⟩ | h
      · exfalso
        obtain ⟨text, h1, h2⟩ := fromFile_ok hu
        rw [write_self] at h1
        have hr := h2
        unfold Tokenizer.fromStr at hr
        obtain ⟨y, hy, _⟩ := Option.bind_eq_some_iff.1 hr
        obtain ⟨x, rfl⟩ := truncated hN hd hk (Option.some.inj h1) hy
        rw [fromStr_num hy] at h2
        cases h2
      · exact h
    · intro paths l hp h
      unfold loadTokens at h
      obtain ⟨lists, h1, _⟩ := bind_ok h
      obtain ⟨b, _, h2⟩ := mapM_res_mem h1 _ hp
      obtain ⟨text, h3, h4⟩ := bind_ok h2
      unfold readToString at h3
      rw [write_self] at h3
      have h5 := fromUtf8_iff.1 (unwrap_ok h3)
      have h6 := unwrap_ok h4
      unfold stringsOf at h6
      obtain ⟨y, hy, h7⟩ := Option.bind_eq_some_iff.1 h6
      obtain ⟨x, rfl⟩ := truncated hN hd hk h5 hy
      cases h7
  · exact .inl ⟨contents, hw, by rw [List.take_of_length_le (by omega)]⟩

/-- **C70** does not extend to `regex`: every run of it that succeeds might as well have stopped so that its output is a file
that loads and admits every string, which the next `generate` or `merge` takes as its allow pattern. -/
theorem C70_regex (env : Env F) (a : RegexArgs) (fs fs' : Files) (h : Runs env (.regex a) fs fs') :
    ∃ fs₂ r, Stops env (.regex a) fs fs₂ ∧ regexFile fs₂ a.output = .ok r ∧ ∀ s, r.isMatch s = true := by
  obtain ⟨contents, hw, rfl⟩ := h
  obtain ⟨r, h1, h2⟩ := regexFile_empty (fs := fs.write a.output []) (path := a.output) write_self
  exact ⟨_, r, .inr ⟨contents, 0, hw, rfl⟩, h1, h2⟩

/-! ### C71: one command -/

/-- **C71** A command that succeeds writes the file given as its output, with what it computed from the files as they were,
and no other file; and one that stops early changes no other file either. -/
theorem C71_files (env : Env F) (cmd : Command F) (out : Str) (hout : OutputFlag cmd out) (fs fs' : Files) :
    (Runs env cmd fs fs' → (∃ contents, Writes env cmd fs contents ∧ fs' out = some contents) ∧ ∀ p, p ≠ out → fs' p = fs p) ∧
    (Stops env cmd fs fs' → ∀ p, p ≠ out → fs' p = fs p) := by
  have e : cmd.output = out := by cases hout <;> rfl
  subst e
  constructor
  · rintro ⟨contents, hw, rfl⟩
    exact ⟨⟨contents, hw, write_self⟩, fun p hp => write_other hp⟩
  · rintro (rfl | ⟨contents, k, hw, rfl⟩)
    · exact fun _ _ => rfl
    · exact fun p hp => write_other hp

omit [TrainOps F] [Mul F] in
theorem reread_revised {N : NumText F} (hN : PrintsNumbers N) (w : List (ScoredToken F)) (ps : List Processor) (specials : List Str) :
    ∀ (fs : Files) (path : Str), fs path = some (saved N (Tokenizer.new (Model.from_ w) ps specials)) →
    ((∃ u, fromFile N fs path = .ok u) ↔ (∀ s ∈ specials, Tokenizer.Plain s) ∧ ∀ token ∈ w, ∃ y, reread N token.score = some y) ∧
    ∀ u, fromFile N fs path = .ok u → u.specialTokens = (Tokenizer.new (Model.from_ w) ps specials).specialTokens ∧
      u.processors = ps ∧ List.Forall₂ (Reloaded N) w u.model.vocab := by
  intro fs path hf
  have h := C28_loaded N hN w ps specials [] .pretty
  have hb : Tokenizer.build w ps specials [] = Tokenizer.new (Model.from_ w) ps specials := rfl
  obtain ⟨h1, h2⟩ := h
  have hsp : ∀ s, s ∈ (Tokenizer.new (Model.from_ w) ps specials).specialTokens ↔ s ∈ specials := by
    intro s
    have := (Tokenizer.build_spec w ps specials ([] : List (Tokenizer.Op F))).2.2.1 s
    rw [hb] at this
    simpa [givenSpecial] using this
  rw [hb] at h1 h2
  rw [Tokenizer.new_model, Tokenizer.new_processors, Model.from_vocab] at h2
  rw [Tokenizer.new_model, Model.from_vocab] at h1
  have hfile : ∀ u, fromFile N fs path = .ok u ↔
      Tokenizer.fromStr N (Json.write N .pretty 0 (Tokenizer.new (Model.from_ w) ps specials).toJson) = some u := by
    intro u
    rw [fromFile_enc N hf]
    constructor
    · exact fun h => unwrap_ok h
    · intro h
      rw [Tokenizer.fileContents, h]
      rfl
  refine ⟨?_, fun u hu => ?_⟩
  · simp only [hfile]
    rw [h1]
    constructor
    · exact fun h => ⟨fun s hs => h.1 s ((hsp s).2 hs), h.2⟩
    · exact fun h => ⟨fun s hs => h.1 s ((hsp s).1 hs), h.2⟩
  · obtain ⟨a, b, c, _⟩ := h2 u ((hfile u).1 hu)
    exact ⟨a, b, c⟩

omit [TrainOps F] [Mul F] in
theorem holdsRevised {N : NumText F} (hN : PrintsNumbers N) {fs : Files} {path : Str} {t : Tokenizer F}
    (ht : fromFile N fs path = .ok t) (w : List (ScoredToken F)) :
    HoldsRevised N (saved N (Tokenizer.new (Model.from_ w) t.processors t.specialTokens)) t w := by
  intro fs' path' hf
  obtain ⟨text, _, hs⟩ := fromFile_ok ht
  obtain ⟨hwf, hplain⟩ := fromStr_plain hs
  obtain ⟨h1, h2⟩ := reread_revised hN w t.processors t.specialTokens fs' path' hf
  refine ⟨?_, fun u hu => ?_⟩
  · rw [h1]
    exact ⟨fun h => h.2, fun h => ⟨hplain, h⟩⟩
  · obtain ⟨a, b, c⟩ := h2 u hu
    rw [Tokenizer.new_specialTokens _ _ _ hwf.nodup] at a
    exact ⟨a, b, c⟩

omit [TrainOps F] [Mul F] in
theorem fromFile_model {N : NumText F} {fs : Files} {path : Str} {t : Tokenizer F} (ht : fromFile N fs path = .ok t) :
    t.model = Model.from_ t.model.vocab := by
  obtain ⟨text, _, hs⟩ := fromFile_ok ht
  exact (fromStr_plain hs).1.model

omit [Mul F] in
/-- **C71** (prune) Pruning a file leaves a file with the same processors and special tokens, and with at most as many
tokens as asked for: tokens of the input, rescored, among them every protected one. -/
theorem C71_prune (env : Env F) (laws : EnvLaws env) (a : PruneArgs F) (fs : Files) (contents : List UInt8)
    (h : Prunes env a fs contents) (t : Tokenizer F) (ht : fromFile env.numbers fs a.input = .ok t)
    (hsize : t.model.vocabSize ≤ 4294967294) :
    ∃ w, PrunedTo t.model.vocab w ∧ w.length ≤ a.vocabSize ∧ HoldsRevised env.numbers contents t w := by
  obtain ⟨t', train, samples, m, h1, _, _, h4, rfl⟩ := h
  rw [ht] at h1
  cases h1
  obtain ⟨h5, h6⟩ := h4
  rw [fromFile_model ht] at h5
  obtain ⟨w, rfl, hw⟩ := C48_run _ env.std laws.std samples t.model.vocab hsize m h5
  refine ⟨w, hw, ?_, holdsRevised laws.numbers ht w⟩
  rw [Model.vocabSize, Model.from_vocab] at h6
  exact Nat.le_of_not_lt h6

omit [Mul F] in
theorem filterLoop_removed (f : VocabularyFilter F) (ninf : F) (n : Nat) : ∀ (l : List (ScoredToken F)) (k : Nat), k ≤ n →
    ∃ removed, l.Perm (f.filterLoop ninf n k l ++ removed) ∧ k + removed.length ≤ n ∧
      ∀ t ∈ removed, (t.keep = true → f.force = true) ∧ lt (f.minScore.getD ninf) t.score = false := by
  intro l
  induction l with
  | nil => intro k hk; exact ⟨[], by simp [VocabularyFilter.filterLoop], by simpa using hk, by simp⟩
  | cons a l ih =>
    intro k hk
    rw [VocabularyFilter.filterLoop]
    by_cases hc : (decide (k ≥ n) || (a.keep && !f.force) || lt (f.minScore.getD ninf) a.score) = true
    · rw [if_pos hc]
      obtain ⟨removed, h1, h2, h3⟩ := ih k hk
      exact ⟨removed, by rw [List.cons_append]; exact h1.cons a, h2, h3⟩
    · rw [if_neg hc]
      have hc' := Bool.eq_false_iff.2 hc
      simp only [Bool.or_eq_false_iff, decide_eq_false_iff_not] at hc'
      obtain ⟨removed, h1, h2, h3⟩ := ih (k + 1) (by omega)
      refine ⟨a :: removed, ?_, by rw [List.length_cons]; omega, ?_⟩
      · exact (h1.cons a).trans (List.perm_middle.symm)
      · intro t ht
        rcases List.mem_cons.1 ht with rfl | ht
        · refine ⟨fun hk => ?_, hc'.2⟩
          have := hc'.1.2
          rw [hk] at this
          simpa using this
        · exact h3 t ht

omit [Mul F] in
/-- **C71** (filter) Filtering a file leaves a file with the same processors and special tokens, and with at least as many
tokens as asked for (or all); what was removed are tokens of the input that do not score above the threshold, and no
protected ones unless forced. -/
theorem C71_filter (env : Env F) (laws : EnvLaws env) (a : FilterArgs F) (fs : Files) (contents : List UInt8)
    (h : Filters env a fs contents) (t : Tokenizer F) (ht : fromFile env.numbers fs a.input = .ok t) :
    ∃ w removed, t.model.vocab.Perm (w ++ removed) ∧ min a.vocabSize t.model.vocab.length ≤ w.length ∧
      (∀ token ∈ removed, (token.keep = true → a.force = true) ∧ lt (a.minScore.getD env.ninf) token.score = false) ∧
      HoldsRevised env.numbers contents t w := by
  obtain ⟨t', m, h1, h2, rfl⟩ := h
  rw [ht] at h1
  cases h1
  rw [fromFile_model ht] at h2
  unfold VocabularyFilter.filter at h2
  by_cases hsz : (Model.from_ t.model.vocab).vocabSize ≤ a.vocabSize
  · rw [if_pos hsz] at h2
    cases h2
    exact ⟨t.model.vocab, [], by simp, by omega, by simp, holdsRevised laws.numbers ht _⟩
  · rw [if_neg hsz] at h2
    obtain ⟨v, h3, h4⟩ := bind_ok h2
    obtain ⟨w, h5, h6⟩ := bind_ok h4
    cases h6
    rw [Model.from_vocab] at h3
    have p1 := sortUnwrap_perm laws.byScore h3
    have p2 := sortUnwrap_perm laws.byScore h5
    obtain ⟨removed, h7, h8, h9⟩ := filterLoop_removed (⟨a.vocabSize, a.minScore, a.force⟩ : VocabularyFilter F) env.ninf
      ((Model.from_ t.model.vocab).vocabSize - a.vocabSize) v 0 (by omega)
    have p : t.model.vocab.Perm (w ++ removed) := p1.symm.trans (h7.trans (p2.symm.append_right removed))
    refine ⟨w, removed, p, ?_, h9, holdsRevised laws.numbers ht w⟩
    have hl := p.length_eq
    rw [List.length_append] at hl
    rw [Model.vocabSize, Model.from_vocab] at hsz h8
    omega

/-- **C71** (merge) Merging on a file leaves a file with the same processors and special tokens, and with the tokens of the
input in their places, followed by at most as many new ones as asked for: each the concatenation of two tokens before it,
not longer than asked for, admitted by the allow pattern, with the scaled sum of the scores, and not protected. -/
theorem C71_merge (env : Env F) (laws : EnvLaws env) (a : MergeArgs F) (fs : Files) (contents : List UInt8)
    (h : Merges env a fs contents) (t : Tokenizer F) (ht : fromFile env.numbers fs a.input = .ok t) :
    ∃ added re, regexFile fs a.allow = .ok re ∧ added.length ≤ a.numMerges ∧
      (∀ i token, added[i]? = some token → ∃ x ∈ t.model.vocab ++ added.take i, ∃ y ∈ t.model.vocab ++ added.take i,
        token.value = x.value ++ y.value ∧ token.score = add x.score y.score * a.scaleFactor ∧ token.keep = false ∧
        token.value.length ≤ a.maxTokenLength ∧ re.isMatch (lossy token.value) = true) ∧
      HoldsRevised env.numbers contents t (t.model.vocab ++ added) := by
  obtain ⟨t', train, samples, re, rnd, listing, fuel, m, _, h1, _, _, h4, h5, h6, rfl⟩ := h
  rw [ht] at h1
  cases h1
  rw [fromFile_model ht] at h6
  obtain ⟨added, rfl, h7, h8⟩ := C41_merge _ rnd env.byPairs laws.byPairs samples listing h5 t.model.vocab fuel m h6
  exact ⟨added, re, h4, h7, h8, holdsRevised laws.numbers ht _⟩

omit [Mul F] in
theorem feedAll_fed {max : Nat} {prob : F} {split : Option (Str → List Str)} {allow : Option (Str → Bool)}
    {added suggested : List Str} {shard : Str → Nat} {sources : List Source} {g g' : Generator F}
    (h : FeedAll shard sources g g') : ∀ {fed}, Fed max prob split allow added suggested fed g →
    ∃ fed', Fed max prob split allow added suggested fed' g' := by
  induction h with
  | nil g => exact fun hf => ⟨_, hf⟩
  | cons h1 _ ih => exact fun hf => ih (hf.feed h1)

theorem mapM_res_iff {α β : Type} {f : α → Res β} {R : α → β → Prop} (h : ∀ a b, f a = .ok b ↔ R a b) (l : List α) :
    ∀ m : List β, l.mapM f = .ok m ↔ List.Forall₂ R l m := by
  induction l with
  | nil =>
    intro m
    rw [List.mapM_nil, List.forall₂_nil_left_iff]
    constructor
    · intro h; cases h; rfl
    · rintro rfl; rfl
  | cons a l ih =>
    intro m
    rw [List.mapM_cons, List.forall₂_cons_left_iff]
    constructor
    · intro h1
      obtain ⟨b, h2, h3⟩ := bind_ok h1
      obtain ⟨m', h4, h5⟩ := bind_ok h3
      cases h5
      exact ⟨b, m', (h a b).1 h2, (ih m').1 h4, rfl⟩
    · rintro ⟨b, m', h1, h2, rfl⟩
      rw [(h a b).2 h1]
      show (l.mapM f >>= fun m' => pure (b :: m')) = _
      rw [(ih m').2 h2]
      rfl

/-- **C71** (processors) The values of `--processor` are accepted if and only if all of them name processors, and then stand
for these, in order. -/
theorem C71_processors (names : List Str) (ps : List Processor) :
    loadProcessors names = .ok ps ↔ List.Forall₂ NamedProcessor names ps := by
  refine mapM_res_iff (fun name p => ?_) names ps
  unfold Processor.ofFlag
  by_cases h1 : name = "crlf".toList
  · subst h1
    rw [if_pos rfl]
    constructor
    · intro h; cases h; exact .crlf
    · intro h; generalize e : "crlf".toList = n at h; cases h <;> first | rfl | (revert e; decide)
  rw [if_neg h1]
  by_cases h2 : name = "nfc".toList
  · subst h2
    rw [if_pos rfl]
    constructor
    · intro h; cases h; exact .nfc
    · intro h; generalize e : "nfc".toList = n at h; cases h <;> first | rfl | (revert e; decide)
  rw [if_neg h2]
  by_cases h3 : name = "nfd".toList
  · subst h3
    rw [if_pos rfl]
    constructor
    · intro h; cases h; exact .nfd
    · intro h; generalize e : "nfd".toList = n at h; cases h <;> first | rfl | (revert e; decide)
  rw [if_neg h3]
  by_cases h4 : name = "nfkc".toList
  · subst h4
    rw [if_pos rfl]
    constructor
    · intro h; cases h; exact .nfkc
    · intro h; generalize e : "nfkc".toList = n at h; cases h <;> first | rfl | (revert e; decide)
  rw [if_neg h4]
  by_cases h5 : name = "nfkd".toList
  · subst h5
    rw [if_pos rfl]
    constructor
    · intro h; cases h; exact .nfkd
    · intro h; generalize e : "nfkd".toList = n at h; cases h <;> first | rfl | (revert e; decide)
  rw [if_neg h5]
  constructor
  · intro h; cases h
  · intro h
    cases h
    · exact absurd rfl h1
    · exact absurd rfl h2
    · exact absurd rfl h3
    · exact absurd rfl h4
    · exact absurd rfl h5

example : ∃ ps, loadProcessors ["nfkd".toList, "crlf".toList] = .ok ps ∧ ps = [.unicode .nfkd, .crlf] := ⟨_, by decide, rfl⟩
example : ¬ ∃ ps, loadProcessors ["nfkd".toList, "CRLF".toList] = .ok ps := by
  rintro ⟨ps, h⟩
  exact absurd h (by rw [show loadProcessors ["nfkd".toList, "CRLF".toList] = .error .panic by decide]; simp)

omit [TrainOps F] [Mul F] in
/-- What `--added` and `--suggested` read. -/
theorem loadTokens_iff {N : NumText F} {fs : Files} {paths : List Str} {l : List Str} :
    loadTokens N fs paths = .ok l ↔ StringsFiles N fs paths l := by
  have hone : ∀ path m, (do let text ← readToString fs path; unwrap (stringsOf N text)) = .ok m ↔ StringsFile N fs path m := by
    intro path m
    constructor
    · intro h
      obtain ⟨text, h1, h2⟩ := bind_ok h
      unfold readToString at h1
      obtain ⟨bytes, h3, h4⟩ := bind_ok h1
      have h3 : fs path = some bytes := by
        cases hf : fs path with
        | none => rw [hf] at h3; cases h3
        | some b => rw [hf] at h3; cases h3; rfl
      have h4 : bytes = enc text := by
        refine fromUtf8_iff.1 ?_
        cases hf : fromUtf8 bytes with
        | none => rw [hf] at h4; cases h4
        | some b => rw [hf] at h4; cases h4; rfl
      subst h4
      cases hs : stringsOf N text with
      | none => rw [hs] at h2; cases h2
      | some m' =>
        rw [hs] at h2
        cases h2
        unfold stringsOf at hs
        obtain ⟨j, hj, hv⟩ := Option.bind_eq_some_iff.1 hs
        cases j with
        | arr items =>
          refine ⟨text, items, h3, hj, (mapM_iff (fun a b => ?_) items m).1 hv⟩
          cases a with
          | str raw => simp [asString]
          | _ => simp [asString]
        | _ => simp [asVec] at hv
    · rintro ⟨text, items, h1, h2, h3⟩
      have h4 : stringsOf N text = some m := by
        unfold stringsOf
        rw [h2]
        refine (mapM_iff (fun a b => ?_) items m).2 h3
        cases a with
        | str raw => simp [asString]
        | _ => simp [asString]
      rw [readToString_enc h1]
      show unwrap (stringsOf N text) = _
      rw [h4]
      rfl
  unfold loadTokens StringsFiles
  constructor
  · intro h
    obtain ⟨lists, h1, h2⟩ := bind_ok h
    cases h2
    exact ⟨lists, (mapM_res_iff hone paths lists).1 h1, rfl⟩
  · rintro ⟨lists, h1, rfl⟩
    rw [(mapM_res_iff hone paths lists).2 h1]
    rfl

omit [Mul F] in
theorem fed_config {max : Nat} {prob : F} {split : Option (Str → List Str)} {allow : Option (Str → Bool)}
    {added suggested fed : List Str} {g : Generator F} (h : Fed max prob split allow added suggested fed g) :
    g.allow = allow ∧ g.addedTokens = added ∧ g.suggestedTokens = suggested ∧ g.maxTokenLength = max := by
  induction h with
  | new => exact ⟨rfl, rfl, rfl, rfl⟩
  | feed _ h2 ih =>
    obtain ⟨_, _, _, _, rfl⟩ := h2
    exact ih

omit [Mul F] in
/-- **C71** (generate) Generating a file leaves one that loads if and only if no requested special token needs an escape in
JSON and every score can be read back; and then with the requested processors and special tokens (those that come up again
left out), at most `max 255 size` tokens, no two alike, all bytes below 255 as protected tokens, and every other token an
added one, a suggested one, or one that is at most as long as asked for and admitted by the allow pattern. -/
theorem C71_generate (env : Env F) (laws : EnvLaws env) (a : GenerateArgs F) (fs : Files) (contents : List UInt8)
    (h : Generates env a fs contents) :
    ∃ vocab processors added suggested allow, List.Forall₂ NamedProcessor a.processors processors ∧
      StringsFiles env.numbers fs a.added added ∧ StringsFiles env.numbers fs a.suggested suggested ∧
      optional (regexFile fs) a.allow = .ok allow ∧
      vocab.length ≤ max 255 a.vocabSize ∧ NoDuplicates vocab ∧ Complete vocab ∧
      (∀ t ∈ vocab, t.value.length = 1 ∨ ∃ s, enc s = t.value ∧ (s ∈ added ∨ s ∈ suggested ∨
        (t.value.length ≤ a.maxTokenLength ∧ ∀ re, allow = some re → re.isMatch s = true))) ∧
      (∀ t ∈ vocab, t.keep = true ↔ t.value.length = 1 ∨ ∃ s ∈ added, enc s = t.value) ∧
      ∀ (fs' : Files) (path : Str), fs' path = some contents →
        ((∃ u, fromFile env.numbers fs' path = .ok u) ↔
          (∀ s ∈ a.special, ∀ c ∈ s, ¬ (c = '"' ∨ c = '\\' ∨ c.toNat < 32)) ∧
          ∀ token ∈ vocab, ∃ y, reread env.numbers token.score = some y) ∧
        ∀ u, fromFile env.numbers fs' path = .ok u → u.processors = processors ∧
          FirstOccurrences a.special u.specialTokens ∧ List.Forall₂ (Reloaded env.numbers) vocab u.model.vocab := by
  obtain ⟨processors, train, allow, split, added, suggested, g, vocab, h1, _, h3, _, h5, h6, h7, h8, rfl⟩ := h
  obtain ⟨fed, hfed⟩ := feedAll_fed h7 .new
  obtain ⟨c1, c2, c3, c4, c5⟩ := C44_generate _ _ _ _ _ _ fed g hfed env.byFreq laws.byFreq env.byScore laws.byScore
    a.vocabSize vocab h8
  obtain ⟨e1, e2, e3, e4⟩ := fed_config hfed
  refine ⟨vocab, processors, added, suggested, allow, (C71_processors _ _).1 h1, loadTokens_iff.1 h5, loadTokens_iff.1 h6, h3, c1, c2, c3, ?_, c5, ?_⟩
  · intro t ht
    rcases c4 t ht with ⟨b, _, e⟩ | ⟨_, s, e, hs⟩
    · left; rw [e]; rfl
    · right
      refine ⟨s, e, ?_⟩
      rcases hs with hs | hs | ⟨x, _, hc⟩
      · exact .inl hs
      · exact .inr (.inl hs)
      · rcases hc with ⟨_, _, h4, h9⟩ | ⟨h | h, _⟩
        · refine .inr (.inr ⟨?_, fun re hre => ?_⟩)
          · rw [← e, ← e4]; exact h4
          · subst hre
            exact h9 _ (by rw [e1]; rfl)
        · exact .inl (e2 ▸ h)
        · exact .inr (.inl (e3 ▸ h))
  · intro fs' path hf
    obtain ⟨r1, r2⟩ := reread_revised laws.numbers vocab processors a.special fs' path hf
    refine ⟨r1, fun u hu => ?_⟩
    obtain ⟨q1, q2, q3⟩ := r2 u hu
    refine ⟨q2, ?_, q3⟩
    have := (Tokenizer.build_spec vocab processors a.special ([] : List (Tokenizer.Op F))).2.2
    rw [q1]
    simpa [givenSpecial, Tokenizer.build] using this

end Tokengeex

import Verif.Props.Cli
import Verif.Props.Sources
/-
C85: what the commands see of the training files.
-/
namespace Tokengeex
open Spec Cli ScoreOps

variable {F : Type}

theorem processed_eq (norm : UnicodeForm → Str → Str) (ps : List Processor) : Source.process norm ps = processed norm ps := rfl

theorem samplesOf_some {contents : List UInt8} {samples : List Str} (h : Source.samplesOf contents = some samples) :
    ∃ text parts, contents = enc text ∧ Parts '\x00' text parts ∧ samples = nonEmpty parts := by
  by_cases hv : ∃ text, contents = enc text
  · obtain ⟨text, rfl⟩ := hv
    rw [Source.samplesOf_text (splitOn_parts '\x00' text)] at h
    exact ⟨text, _, rfl, splitOn_parts _ _, (Option.some.inj h).symm⟩
  · rw [Source.samplesOf_invalid (fun text e => hv ⟨text, e⟩)] at h
    cases h

/-- What `load` reads. -/
theorem load_texts (norm : UnicodeForm → Str → Str) (parse : Str → Option F64) (fs : Files) (ps : List Processor)
    (source : Str) (texts : List Str) :
    (∃ s, Source.load norm fs parse ps source = .ok s ∧ s.processedSamples = texts) ↔ SourceTexts norm parse fs ps source texts := by
  have hf : ∀ l : List Str, (l.filter fun s => !s.isEmpty) = nonEmpty l := by
    intro l
    unfold nonEmpty
    congr 1
    funext s
    cases s <;> simp
  constructor
  · rintro ⟨s, h, rfl⟩
    have hparts := splitOn_parts ':' source
    rw [Source.load] at h
    rcases hsp : splitOn (· == ':') source with _ | ⟨name, _ | ⟨path, rest⟩⟩
    · rw [hsp] at h; cases h
    · rw [hsp] at h; cases h
    · rw [hsp] at h hparts
      dsimp only at h
      by_cases hr : rest.length > 1
      · rw [if_pos hr] at h; cases h
      · rw [if_neg hr] at h
        cases hfile : fs path with
        | none =>
          rw [hfile] at h
          rcases rest with _ | ⟨p, rest⟩
          · cases h
          · dsimp only at h
            cases hp : parse p <;> rw [hp] at h <;> cases h
        | some contents =>
          rw [hfile] at h
          cases hs : Source.samplesOf contents with
          | none =>
            rcases rest with _ | ⟨p, rest⟩
            · dsimp only at h
              rw [hs] at h; cases h
            · dsimp only at h
              cases hp : parse p with
              | none => rw [hp] at h; cases h
              | some x => rw [hp] at h; dsimp only at h; rw [hs] at h; cases h
          | some samples =>
            obtain ⟨text, parts, rfl, h2, rfl⟩ := samplesOf_some hs
            rcases rest with _ | ⟨p, rest⟩
            · dsimp only at h
              rw [hs] at h
              have := Except.ok.inj h
              subst this
              exact ⟨name, path, [], _, text, parts, hparts, .inl ⟨rfl, rfl⟩, hfile, h2, hf _⟩
            · have hrest : rest = [] := by
                cases rest with
                | nil => rfl
                | cons _ _ => simp at hr
              subst hrest
              dsimp only at h
              cases hp : parse p with
              | none => rw [hp] at h; cases h
              | some x =>
                rw [hp] at h
                dsimp only at h
                rw [hs] at h
                have := Except.ok.inj h
                subst this
                exact ⟨name, path, [p], x, text, parts, hparts, .inr ⟨p, rfl, hp⟩, hfile, h2, hf _⟩
  · rintro ⟨name, path, rest, proportion, text, parts, hparts, hprop, hfile, htext, rfl⟩
    rw [Source.load, splitOn_of_parts hparts]
    dsimp only
    rcases hprop with ⟨rfl, hone⟩ | ⟨p, rfl, hp⟩
    · rw [hone]
      rw [if_neg (by decide), hfile]
      dsimp only
      rw [Source.samplesOf_text htext]
      exact ⟨_, rfl, hf _⟩
    · rw [if_neg (by simp), hfile]
      dsimp only
      rw [hp]
      dsimp only
      rw [Source.samplesOf_text htext]
      exact ⟨_, rfl, hf _⟩

/-- What `loadAll` reads. -/
theorem loadAll_texts (norm : UnicodeForm → Str → Str) (parse : Str → Option F64) (fs : Files) (ps : List Processor)
    (sources : List Str) (texts : List (List Str)) :
    (∃ l, Source.loadAll norm fs parse ps sources = .ok l ∧ l.map Source.processedSamples = texts) ↔
      TrainingTexts norm parse fs ps sources texts := by
  unfold TrainingTexts Source.loadAll
  induction sources generalizing texts with
  | nil =>
    rw [List.forall₂_nil_left_iff, List.mapM_nil]
    constructor
    · rintro ⟨l, h, rfl⟩; cases h; rfl
    · rintro rfl; exact ⟨[], rfl, rfl⟩
  | cons a sources ih =>
    rw [List.forall₂_cons_left_iff, List.mapM_cons]
    constructor
    · rintro ⟨l, h, rfl⟩
      obtain ⟨s, h1, h2⟩ := bind_ok h
      obtain ⟨l', h3, h4⟩ := bind_ok h2
      cases h4
      exact ⟨_, _, (load_texts ..).1 ⟨s, h1, rfl⟩, (ih _).1 ⟨l', h3, rfl⟩, rfl⟩
    · rintro ⟨t, ts, h1, h2, rfl⟩
      obtain ⟨s, h3, rfl⟩ := (load_texts ..).2 h1
      obtain ⟨l, h4, rfl⟩ := (ih ts).2 h2
      refine ⟨s :: l, ?_, rfl⟩
      rw [h3]
      show (sources.mapM (Source.load norm fs parse ps) >>= fun m' => pure (s :: m')) = _
      rw [h4]
      rfl

theorem texts_unique {norm : UnicodeForm → Str → Str} {parse : Str → Option F64} {fs : Files} {ps : List Processor}
    {sources : List Str} {a b : List (List Str)} (ha : TrainingTexts norm parse fs ps sources a)
    (hb : TrainingTexts norm parse fs ps sources b) : a = b := by
  obtain ⟨l, h1, rfl⟩ := (loadAll_texts ..).2 ha
  obtain ⟨l', h2, rfl⟩ := (loadAll_texts ..).2 hb
  rw [h1] at h2
  cases h2
  rfl

theorem flatMap_texts (l : List Source) : l.flatMap Source.processedSamples = (l.map Source.processedSamples).flatten := by
  rw [List.flatMap]

/-- The samples that two sets of training files give are the same up to their order. -/
theorem shuffled_of_texts {norm : UnicodeForm → Str → Str} {parse : Str → Option F64} {fs fs' : Files} {ps : List Processor}
    {sources sources' : List Str} {texts texts' : List (List Str)} (ha : TrainingTexts norm parse fs ps sources texts)
    (hb : TrainingTexts norm parse fs' ps sources' texts') (hperm : texts.flatten.Perm texts'.flatten) {train : List Source}
    {samples : List Str} (htrain : Source.loadAll norm fs parse ps sources = .ok train) (hs : Source.Shuffled train samples) :
    ∃ train', Source.loadAll norm fs' parse ps sources' = .ok train' ∧ Source.Shuffled train' samples := by
  have h1 := texts_unique ha ((loadAll_texts ..).1 ⟨train, htrain, rfl⟩)
  subst h1
  obtain ⟨train', h2, rfl⟩ := (loadAll_texts ..).2 hb
  refine ⟨train', h2, ?_⟩
  unfold Source.Shuffled at hs ⊢
  rw [flatMap_texts] at hs ⊢
  exact hs.trans hperm

section
variable [TrainOps F]

/-- **C85** (encode) `encode_ordinary` depends on a text only through what the processors make of it, and gives what the model
gives for that. -/
theorem C85_encode (norm : UnicodeForm → Str → Str) (t : Tokenizer F) (text : Str) (dropout : F) (rnd : Nat → F) :
    t.encodeOrdinary norm text dropout rnd = t.model.encode (processed norm t.processors text) dropout rnd := rfl

/-- **C85** (prune) What `prune` may write depends on the training files only through their texts as the processors of the
tokenizer change them, and not on the order of these: with other training files that give the same texts it may write the same. -/
theorem C85_prune (env : Env F) (a : PruneArgs F) (fs fs' : Files) (train' : List Str) (t : Tokenizer F)
    (ht : fromFile env.numbers fs a.input = .ok t) (ht' : fs' a.input = fs a.input) (texts texts' : List (List Str))
    (htexts : TrainingTexts env.norm env.parse fs t.processors a.train texts)
    (htexts' : TrainingTexts env.norm env.parse fs' t.processors train' texts') (hperm : texts.flatten.Perm texts'.flatten)
    (contents : List UInt8) (h : Prunes env a fs contents) : Prunes env { a with train := train' } fs' contents := by
  obtain ⟨u, train, samples, m, h1, h2, h3, h4, h5⟩ := h
  rw [ht] at h1
  cases h1
  obtain ⟨train₂, h6, h7⟩ := shuffled_of_texts htexts htexts' hperm h2 h3
  refine ⟨t, train₂, samples, m, ?_, h6, h7, h4, h5⟩
  rw [← ht]
  unfold fromFile readToString
  rw [ht']

/-- **C85** (merge) What `merge` may write depends on the training files only through their texts as the processors of the
tokenizer change them, and not on the order of these. -/
theorem C85_merge [Mul F] (env : Env F) (a : MergeArgs F) (fs fs' : Files) (train' : List Str) (hne : train' ≠ []) (t : Tokenizer F)
    (ht : fromFile env.numbers fs a.input = .ok t) (ht' : fs' a.input = fs a.input) (hallow : fs' a.allow = fs a.allow)
    (texts texts' : List (List Str))
    (htexts : TrainingTexts env.norm env.parse fs t.processors a.train texts)
    (htexts' : TrainingTexts env.norm env.parse fs' t.processors train' texts') (hperm : texts.flatten.Perm texts'.flatten)
    (contents : List UInt8) (h : Merges env a fs contents) : Merges env { a with train := train' } fs' contents := by
  obtain ⟨u, train, samples, re, rnd, listing, fuel, m, _, h1, h2, h3, h4, h5, h6, h7⟩ := h
  rw [ht] at h1
  cases h1
  obtain ⟨train₂, h8, h9⟩ := shuffled_of_texts htexts htexts' hperm h2 h3
  refine ⟨t, train₂, samples, re, rnd, listing, fuel, m, hne, ?_, h8, h9, ?_, h5, h6, h7⟩
  · rw [← ht]
    unfold fromFile readToString
    rw [ht']
  · rw [← h4]
    unfold regexFile
    rw [hallow]

theorem feedAll_texts (shard : Str → Nat) : ∀ (l l' : List Source) (g g' : Generator F),
    l.map Source.processedSamples = l'.map Source.processedSamples → FeedAll shard l g g' → FeedAll shard l' g g' := by
  intro l
  induction l with
  | nil =>
    intro l' g g' he h
    have : l' = [] := by simpa using he.symm
    subst this
    exact h
  | cons s l ih =>
    intro l' g g' he h
    cases l' with
    | nil => simp at he
    | cons s' l' =>
      simp only [List.map_cons, List.cons.injEq] at he
      cases h with
      | cons h1 h2 =>
        rw [he.1] at h1
        exact .cons h1 (ih l' _ _ he.2 h2)

/-- **C85** (generate) What `generate` may write depends on the training files only through their texts as the processors
given by `--processor` change them, source by source. -/
theorem C85_generate (env : Env F) (a : GenerateArgs F) (fs fs' : Files) (train' : List Str) (ps : List Processor)
    (hps : List.Forall₂ NamedProcessor a.processors ps)
    (hother : ∀ path, (path ∈ a.allow ∨ path ∈ a.split ∨ path ∈ a.added ∨ path ∈ a.suggested) → fs' path = fs path)
    (texts : List (List Str)) (htexts : TrainingTexts env.norm env.parse fs ps a.train texts)
    (htexts' : TrainingTexts env.norm env.parse fs' ps train' texts)
    (contents : List UInt8) (h : Generates env a fs contents) : Generates env { a with train := train' } fs' contents := by
  obtain ⟨ps', train, allow, split, added, suggested, g, vocab, h1, h2, h3, h4, h5, h6, h7, h8, h9⟩ := h
  have hps' := (C71_processors _ _).2 hps
  rw [hps'] at h1
  cases h1
  obtain ⟨train₂, h10, h11⟩ := (loadAll_texts ..).2 htexts'
  have h12 := texts_unique ((loadAll_texts ..).1 ⟨train, h2, rfl⟩) htexts
  have hopt : ∀ {α : Type} (load load' : Str → Res α) (o : Option Str), (∀ p ∈ o, load' p = load p) →
      Cli.optional load' o = Cli.optional load o := by
    intro α load load' o ho
    cases o with
    | none => rfl
    | some p => show Except.map some (load' p) = Except.map some (load p); rw [ho p rfl]
  have htok : ∀ paths : List Str, (∀ p ∈ paths, fs' p = fs p) → loadTokens env.numbers fs' paths = loadTokens env.numbers fs paths := by
    intro paths hp
    unfold loadTokens
    congr 1
    induction paths with
    | nil => rfl
    | cons p paths ih =>
      rw [List.mapM_cons, List.mapM_cons, ih (fun q hq => hp q (by simp [hq]))]
      congr 1
      unfold readToString
      rw [hp p (by simp)]
  refine ⟨ps, train₂, allow, split, added, suggested, g, vocab, hps', h10, ?_, ?_, ?_, ?_, ?_, h8, h9⟩
  · rw [← h3]
    refine hopt _ _ _ fun p hp => ?_
    unfold regexFile
    rw [hother p (.inl hp)]
  · rw [← h4]
    refine hopt _ _ _ fun p hp => ?_
    unfold fancyFile readToString
    rw [hother p (.inr (.inl hp))]
  · rw [← h5]
    exact htok _ fun p hp => hother p (.inr (.inr (.inl hp)))
  · rw [← h6]
    exact htok _ fun p hp => hother p (.inr (.inr (.inr hp)))
  · exact feedAll_texts env.shard train train₂ _ g (h12.trans h11.symm) h7

omit [TrainOps F] in
/-- **C85** (mine) What `mine` may write depends on the training files only through their texts, unchanged by any processor,
and not on the order of these. -/
theorem C85_mine (env : Env F) (a : MineArgs) (fs fs' : Files) (train' : List Str) (hne : train' ≠ [])
    (texts texts' : List (List Str)) (htexts : TrainingTexts env.norm env.parse fs [] a.train texts)
    (htexts' : TrainingTexts env.norm env.parse fs' [] train' texts') (hperm : texts.flatten.Perm texts'.flatten)
    (contents : List UInt8) (h : Mines env a fs contents) : Mines env { a with train := train' } fs' contents := by
  obtain ⟨train, samples, patterns, re, idioms, _, h1, h2, h3, h4⟩ := h
  obtain ⟨train₂, h8, h9⟩ := shuffled_of_texts htexts htexts' hperm h2 h3
  exact ⟨train₂, samples, patterns, re, idioms, hne, h1, h8, h9, h4⟩

end

/-! ### Non-vacuity -/

/-- Two file systems: the line of one file ends with CR LF, and one file is split in two. -/
def lineFiles (path : Str) : Option (List UInt8) :=
  if path = ['f'] then some (enc ("a\r\nb\x00\x00é".toList)) else none
def lineFiles' (path : Str) : Option (List UInt8) :=
  if path = ['g'] then some (enc ("é".toList)) else if path = ['h'] then some (enc ("a\nb".toList)) else none

example : TrainingTexts (fun _ s => s) (fun _ => none) lineFiles [.crlf] ["train:f".toList] [["a\nb".toList, "é".toList]] := by
  refine .cons ⟨"train".toList, ['f'], [], _, "a\r\nb\x00\x00é".toList, ["a\r\nb".toList, [], "é".toList],
    ⟨by decide, by decide, by decide⟩, .inl ⟨rfl, rfl⟩, by decide, ⟨by decide, by decide, by decide⟩, ?_⟩ .nil
  rw [Source.quota_one (by decide)]
  decide

example : TrainingTexts (fun _ s => s) (fun _ => none) lineFiles' [.crlf] ["x:g".toList, "y:h".toList]
    [["é".toList], ["a\nb".toList]] := by
  refine .cons ⟨['x'], ['g'], [], _, "é".toList, ["é".toList],
    ⟨by decide, by decide, by decide⟩, .inl ⟨rfl, rfl⟩, by decide, ⟨by decide, by decide, by decide⟩, ?_⟩ (.cons
    ⟨['y'], ['h'], [], _, "a\nb".toList, ["a\nb".toList],
    ⟨by decide, by decide, by decide⟩, .inl ⟨rfl, rfl⟩, by decide, ⟨by decide, by decide, by decide⟩, ?_⟩ .nil)
  · rw [Source.quota_one (by decide)]
    decide
  · rw [Source.quota_one (by decide)]
    decide

/-- The texts are the same up to their order. -/
example : [["a\nb".toList, "é".toList]].flatten.Perm [["é".toList], ["a\nb".toList]].flatten := by decide

end Tokengeex

import Verif.Spec.Recipes
import Verif.Props.RecipeFlags
import Verif.Props.WrittenFiles
import Verif.Props.GenerateF64
import Verif.Props.ExactRegex
import Verif.Props.Processor
import Verif.Props.TrainingTexts
import Verif.Proofs.EM3
/-
C98: the recipes of docs/RECIPES.md, from the command lines to the tokenizers that they leave.
-/
namespace Tokengeex
open Spec Cli Recipes
variable {F : Type} [TrainOps F]

theorem main_runs [Mul F] {env : Env F} {float : Str → Option F} {args : List Str} {fs fs' : Files} {cmd : Command F}
    (hp : parseArgs float args = .ok (.run cmd)) (h : Main env float args fs 0 fs') : Runs env cmd fs fs' := by
  generalize hc : (0 : Nat) = code at h
  cases h with
  | help h => rw [hp] at h; cases h
  | usage h => cases hc
  | printPatterns h => rw [hp] at h; cases h
  | todo h => cases hc
  | run h hr =>
    rw [hp] at h
    cases h
    exact hr
  | panic h hr => cases hc

/-- **C67** If there is room for them, no added string is missing. -/
theorem C67_added (max' : Nat) (prob : F) (split : Option (Str → List Str)) (allow : Option (Str → Bool))
    (added suggested fed : List Str) (g : Generator F) (h : Fed max' prob split allow added suggested fed g)
    (byFreq : Sorter (Str × Nat)) (hf : SortLaws byFreq) (byScore : Sorter (ScoredToken F)) (hs : SortLaws byScore)
    (size : Nat) (w : List (ScoredToken F)) (hg : Generator.Generate g byFreq byScore size w)
    (hroom : 255 + added.length ≤ size) (s : Str) (hin : s ∈ added) (hlong : 1 < (enc s).length) : ∃ t ∈ w, t.value = enc s := by
  by_contra hno
  have hout : ∀ t ∈ w, t.value ≠ enc s := fun t ht e => hno ⟨t, ht, e⟩
  obtain ⟨sels, _, hfreq, _⟩ := Generator.fed_facts h
  have hcount : 0 < frequency g s := by
    rw [hfreq]
    have := List.count_pos_iff.2 hin
    omega
  obtain ⟨hfull, hall⟩ := C67_greedy max' prob split allow added suggested fed g h byFreq hf byScore hs size w hg s hlong hcount hout
  obtain ⟨_, hnd, _, horigin, _⟩ := C44_generate max' prob split allow added suggested fed g h byFreq hf byScore hs size w hg
  have hsub : w.map (·.value) ⊆ ((List.range 255).map fun b => [UInt8.ofNat b]) ++ (added.erase s).map enc := by
    intro v hv
    obtain ⟨t, ht, rfl⟩ := List.mem_map.1 hv
    rw [List.mem_append]
    rcases horigin t ht with ⟨b, hb, e⟩ | ⟨hl, s', e, _⟩
    · left
      refine List.mem_map.2 ⟨b.toNat, ?_, ?_⟩
      · rw [List.mem_range]
        have := b.toNat_lt
        have : b.toNat ≠ 255 := fun e => hb (UInt8.toNat_inj.1 e)
        omega
      · rw [e, UInt8.ofNat_toNat]
    · right
      rcases hall t ht s' e.symm hl with h1 | ⟨h1, _⟩ | ⟨h1, _⟩
      · refine List.mem_map.2 ⟨s', (List.mem_erase_of_ne ?_).2 h1, e⟩
        rintro rfl
        exact hout t ht e.symm
      · exact absurd hin h1
      · exact absurd hin h1
  have hle := (List.subperm_of_subset hnd hsub).length_le
  simp only [List.length_map, List.length_append, List.length_range, List.length_erase_of_mem hin] at hle
  have : 0 < added.length := List.length_pos_of_mem hin
  omega

/-- **C67** If there is room for the added and the suggested strings, no suggested string is missing. -/
theorem C67_suggested (max' : Nat) (prob : F) (split : Option (Str → List Str)) (allow : Option (Str → Bool))
    (added suggested fed : List Str) (g : Generator F) (h : Fed max' prob split allow added suggested fed g)
    (byFreq : Sorter (Str × Nat)) (hf : SortLaws byFreq) (byScore : Sorter (ScoredToken F)) (hs : SortLaws byScore)
    (size : Nat) (w : List (ScoredToken F)) (hg : Generator.Generate g byFreq byScore size w)
    (hroom : 255 + added.length + suggested.length ≤ size) (s : Str) (hin : s ∈ suggested) (hlong : 1 < (enc s).length) :
    ∃ t ∈ w, t.value = enc s := by
  by_contra hno
  have hout : ∀ t ∈ w, t.value ≠ enc s := fun t ht e => hno ⟨t, ht, e⟩
  obtain ⟨sels, _, hfreq, _⟩ := Generator.fed_facts h
  have hcount : 0 < frequency g s := by
    rw [hfreq]
    have := List.count_pos_iff.2 hin
    omega
  obtain ⟨hfull, hall⟩ := C67_greedy max' prob split allow added suggested fed g h byFreq hf byScore hs size w hg s hlong hcount hout
  obtain ⟨_, hnd, _, horigin, _⟩ := C44_generate max' prob split allow added suggested fed g h byFreq hf byScore hs size w hg
  have hsub : w.map (·.value) ⊆ ((List.range 255).map fun b => [UInt8.ofNat b]) ++ (added.map enc ++ (suggested.erase s).map enc) := by
    intro v hv
    obtain ⟨t, ht, rfl⟩ := List.mem_map.1 hv
    rw [List.mem_append]
    rcases horigin t ht with ⟨b, hb, e⟩ | ⟨hl, s', e, _⟩
    · left
      refine List.mem_map.2 ⟨b.toNat, ?_, ?_⟩
      · rw [List.mem_range]
        have := b.toNat_lt
        have : b.toNat ≠ 255 := fun e => hb (UInt8.toNat_inj.1 e)
        omega
      · rw [e, UInt8.ofNat_toNat]
    · right
      rw [List.mem_append]
      rcases hall t ht s' e.symm hl with h1 | ⟨_, h1⟩ | ⟨_, h1, _⟩
      · exact Or.inl (List.mem_map.2 ⟨s', h1, e⟩)
      · refine Or.inr (List.mem_map.2 ⟨s', (List.mem_erase_of_ne ?_).2 h1, e⟩)
        rintro rfl
        exact hout t ht e.symm
      · exact absurd hin h1
  have hle := (List.subperm_of_subset hnd hsub).length_le
  simp only [List.length_map, List.length_append, List.length_range, List.length_erase_of_mem hin] at hle
  have : 0 < suggested.length := List.length_pos_of_mem hin
  omega
/-- Distinct strings are registered as they are. -/
theorem firstOccurrences_nodup {all reg : List Str} (hn : all.Nodup) (h : FirstOccurrences all reg) : reg = all := by
  obtain ⟨h1, h2⟩ := h
  have hreg : reg.Nodup := h2.imp fun {a b} hab e => by rw [e] at hab; exact absurd hab (Nat.lt_irrefl _)
  have hp : reg.Perm all := (List.perm_ext_iff_of_nodup hreg hn).2 h1
  have hall : all.Pairwise fun a b => all.idxOf a < all.idxOf b := by
    rw [List.pairwise_iff_getElem]
    intro i j hi hj hij
    rw [hn.idxOf_getElem i hi, hn.idxOf_getElem j hj]
    exact hij
  exact hp.eq_of_pairwise (fun a b _ _ h3 h4 => absurd (Nat.lt_trans h3 h4) (Nat.lt_irrefl _)) h2 hall

omit [TrainOps F] in
theorem stringsFile_unique {N : NumText F} {fs : Files} {path : Str} {a b : List Str} (ha : StringsFile N fs path a)
    (hb : StringsFile N fs path b) : a = b := by
  have key : ∀ {l}, StringsFile N fs path l → loadTokens N fs [path] = .ok l := fun {l} hl =>
    loadTokens_iff.2 ⟨[l], .cons hl .nil, by simp⟩
  have := (key ha).symm.trans (key hb)
  cases this
  rfl

/-- **C98** (white space) If the recipe for white space succeeds, it leaves a list of distinct strings, each of them 1 to 32
spaces, and no other file is touched. -/
theorem C98_mine [Mul F] (env : Env F) (laws : EnvLaws env) (find : FindLaws env.findIter) (float : Str → Option F) (fs fs' : Files)
    (h : Main env float (args Recipes.whitespace) fs 0 fs') :
    (∃ idioms, StringsFile env.numbers fs' "hub/tokens/whitespace.json".toList idioms ∧ idioms.Nodup ∧
      ∀ w ∈ idioms, ∃ n, 1 ≤ n ∧ n ≤ 32 ∧ w = List.replicate n ' ') ∧
    ∀ path, path ≠ "hub/tokens/whitespace.json".toList → fs' path = fs path := by
  have hr := main_runs (C98_mine_flags float) h
  obtain ⟨train, patterns, idioms, _, hp, hfile, hidioms, _⟩ := C74_patterns env laws find _ _ _ hr
  refine ⟨⟨idioms, hfile, ?_, ?_⟩, ?_⟩
  · obtain ⟨file, hw, e⟩ := hr
    obtain ⟨train', samples, patterns', re, found, _, _, _, _, _, _, hmine, rfl⟩ := hw
    have hl := C74_idioms env.numbers laws.numbers (found.map (·.1)) fs' "hub/tokens/whitespace.json".toList (by rw [e]; exact write_self)
    have : found.map (·.1) = idioms := stringsFile_unique hl.1 hfile
    rw [← this]
    exact ((C47_mine _ _ _ laws.byFreq _ _).2 _ hmine).1
  · intro w hw
    obtain ⟨_, _, sample, _, before, after, _, r, hrp, hm⟩ := hidioms w hw
    have hp' : loadPatterns ["[ ]{1,32}".toList] = .ok patterns := hp
    have hre : r.re = .rep (.cls false [(32, 32)]) 1 (some 32) := by
      have hd : (loadPatterns ["[ ]{1,32}".toList]).map (fun l => l.map (·.re)) = .ok [.rep (.cls false [(32, 32)]) 1 (some 32)] := by
        decide +kernel
      rw [hp'] at hd
      have := Except.ok.inj hd
      have hin : r.re ∈ patterns.map (·.re) := List.mem_map.2 ⟨r, hrp, rfl⟩
      have this' : patterns.map (·.re) = [.rep (.cls false [(32, 32)]) 1 (some 32)] := this
      rw [this', List.mem_singleton] at hin
      exact hin
    rw [hre, matches_repCls] at hm
    obtain ⟨h1, h2, h3⟩ := hm
    refine ⟨w.length, h1, h2 32 rfl, ?_⟩
    rw [List.eq_replicate_iff]
    refine ⟨rfl, fun c hc => ?_⟩
    have h4 := (Re.inClass_iff _ _ _).1 (h3 c hc)
    simp only [List.mem_singleton, exists_eq_left, iff_true] at h4
    have h5 : c.toNat = ' '.toNat := Nat.le_antisymm h4.2 h4.1
    exact Char.toNat_inj.1 h5
  · intro path hne
    obtain ⟨file, _, rfl⟩ := hr
    exact if_neg hne

section
variable [Elementary]

omit [Elementary] in
theorem reloaded_from {N : NumText F64} {v w : List (ScoredToken F64)} (h : List.Forall₂ (Reloaded N) v w) {t : ScoredToken F64}
    (ht : t ∈ w) : ∃ t₀ ∈ v, t.value = t₀.value ∧ t.keep = t₀.keep := by
  obtain ⟨i, hi⟩ := List.mem_iff_getElem?.1 ht
  obtain ⟨t₀, h1, h2⟩ := forall₂_right h hi
  exact ⟨t₀, List.mem_of_getElem? h1, h2.1, h2.2.1⟩

omit [Elementary] in
theorem reloaded_to {N : NumText F64} {v w : List (ScoredToken F64)} (h : List.Forall₂ (Reloaded N) v w) {t₀ : ScoredToken F64}
    (ht : t₀ ∈ v) : ∃ t ∈ w, t.value = t₀.value ∧ t.keep = t₀.keep := by
  obtain ⟨i, hi⟩ := List.mem_iff_getElem?.1 ht
  obtain ⟨t, h1, h2⟩ := forall₂_left h hi
  exact ⟨t, List.mem_of_getElem? h1, h2.1, h2.2.1⟩

omit [Elementary] in
theorem reloaded_values {N : NumText F64} {v w : List (ScoredToken F64)} (h : List.Forall₂ (Reloaded N) v w) :
    w.map (·.value) = v.map (·.value) := by
  induction h with
  | nil => rfl
  | cons h1 _ ih => rw [List.map_cons, List.map_cons, ih, h1.1]

omit [Elementary] in
theorem fed_split {max : Nat} {prob : F} {split : Option (Str → List Str)} {allow : Option (Str → Bool)}
    {added suggested fed : List Str} {g : Generator F} (h : Fed max prob split allow added suggested fed g) : g.split = split := by
  induction h with
  | new => rfl
  | feed _ h2 ih =>
    obtain ⟨_, _, _, _, rfl⟩ := h2
    exact ih

omit [Elementary] in
theorem feedAll_all {max : Nat} {prob : F} {split : Option (Str → List Str)} {allow : Option (Str → Bool)}
    {added suggested : List Str} {shard : Str → Nat} {sources : List Source} {g g' : Generator F}
    (h : FeedAll shard sources g g') : ∀ {fed}, Fed max prob split allow added suggested fed g →
    Fed max prob split allow added suggested (fed ++ sources.flatMap Source.processedSamples) g' := by
  induction h with
  | nil g =>
    intro fed hf
    rw [List.flatMap_nil, List.append_nil]
    exact hf
  | cons h1 _ ih =>
    intro fed hf
    have := ih (hf.feed h1)
    rw [List.append_assoc] at this
    exact this

/-- **C98** (generating) If the recipe for the initial vocabulary succeeds, with the allow file of the repository, then it leaves
a tokenizer as promised, and no other file is touched. -/
theorem C98_generate (env : Env F64) (laws : EnvLaws env) (hN : SerdeDoubles env.numbers) (float : Str → Option F64)
    (p : F64) (hp : float "0.01".toList = some p) (fs fs' : Files)
    (hallow : fs "data/exact.regex".toList = some (enc exactRegexFile.toList))
    (h : Main env float (args Recipes.init) fs 0 fs') :
    (∃ texts lang whitespace punct t, TrainingTexts env.norm env.parse fs [.crlf, .unicode .nfc]
        ((("infilling" :: languages).map fun lang => lang ++ ":./hub/data/train/" ++ lang ++ ".bin" ++ "").map String.toList) texts ∧
      StringsFile env.numbers fs "hub/tokens/lang.json".toList lang ∧
      StringsFile env.numbers fs "hub/tokens/whitespace.json".toList whitespace ∧
      StringsFile env.numbers fs "hub/tokens/punct.json".toList punct ∧
      fromFile env.numbers fs' "hub/vocab/v2/exact-500k-init.json".toList = .ok t ∧
      Delivered texts.flatten (lang ++ whitespace) punct 500000 t) ∧
    ∀ path, path ≠ "hub/vocab/v2/exact-500k-init.json".toList → fs' path = fs path := by
  have hr := main_runs (C98_generate_flags float p hp) h
  obtain ⟨contents, hg, e⟩ := hr
  refine ⟨?_, ?_⟩
  swap
  · intro path hne
    rw [e]
    exact if_neg hne
  have hg' : Generates env _ fs contents := hg
  have hself : fs' "hub/vocab/v2/exact-500k-init.json".toList = some contents := by rw [e]; exact write_self
  obtain ⟨t, ht⟩ := (C86_generate env laws hN _ fs contents hg').2 (by dsimp only; decide +kernel) fs'
    "hub/vocab/v2/exact-500k-init.json".toList hself
  obtain ⟨processors, train, allow, split, added, suggested, g, vocab, h1, h2, h3, h4, h5, h6, h7, h8, hsaved⟩ := hg'
  dsimp only at h1 h2 h3 h4 h5 h6 h7 h8 hsaved
  obtain rfl : none = split := Except.ok.inj h4
  have hfed := feedAll_all h7 .new
  rw [List.nil_append] at hfed
  obtain ⟨c1, c2, c3, c4, c5⟩ := C44_generate _ _ _ _ _ _ _ g hfed env.byFreq laws.byFreq env.byScore laws.byScore
    _ vocab h8
  obtain ⟨e1, e2, e3, e4⟩ := fed_config hfed
  obtain ⟨_, r2⟩ := reread_revised laws.numbers vocab processors recipeSpecial fs' _ (by rw [hself, hsaved]; rfl)
  obtain ⟨q1, q2, q3⟩ := r2 t ht
  have hproc : processors = [.crlf, .unicode .nfc] := by
    have : loadProcessors ["crlf".toList, "nfc".toList] = .ok [.crlf, .unicode .nfc] := by decide +kernel
    exact Except.ok.inj (h1.symm.trans this)
  obtain ⟨lists, h9, h10⟩ := loadTokens_iff.1 h5
  obtain ⟨lang, _, hlang, h11, rfl⟩ := List.forall₂_cons_left_iff.1 h9
  obtain ⟨whitespace, _, hwhite, h12, rfl⟩ := List.forall₂_cons_left_iff.1 h11
  obtain rfl := List.forall₂_nil_left_iff.1 h12
  obtain ⟨lists', h13, h14⟩ := loadTokens_iff.1 h6
  obtain ⟨punct, _, hpunct, h15, rfl⟩ := List.forall₂_cons_left_iff.1 h13
  obtain rfl := List.forall₂_nil_left_iff.1 h15
  have ea : added = lang ++ whitespace := by rw [h10]; simp
  have es : suggested = punct := by rw [h14]; simp
  subst ea es hproc
  have htexts := (loadAll_texts ..).1 ⟨train, h2, rfl⟩
  refine ⟨_, lang, whitespace, _, t, htexts, hlang, hwhite, hpunct, ht, q2, ?_, ?_, ?_, complete_reloaded q3 c3,
    C86_loaded hN fs' _ t ht, ?_, ?_, ?_⟩
  · refine firstOccurrences_nodup (by decide +kernel) ?_
    have := (Tokenizer.build_spec vocab [.crlf, .unicode .nfc] recipeSpecial ([] : List (Tokenizer.Op F64))).2.2
    rw [q1]
    simpa [givenSpecial, Tokenizer.build] using this
  · rw [← q3.length_eq]
    exact c1
  · unfold NoDuplicates
    rw [reloaded_values q3]
    exact c2
  · intro token htok
    obtain ⟨t₀, ht₀, v1, v2⟩ := reloaded_from q3 htok
    rw [v1, v2]
    exact c5 t₀ ht₀
  · intro hroom s hs hlong
    obtain ⟨t₀, ht₀, v1⟩ := C67_added _ _ _ _ _ _ _ g hfed env.byFreq laws.byFreq env.byScore laws.byScore
      _ vocab h8 hroom s hs hlong
    obtain ⟨token, htok, v2, _⟩ := reloaded_to q3 ht₀
    exact ⟨token, htok, v2.trans v1⟩
  · intro token htok
    obtain ⟨t₀, ht₀, v1, v2⟩ := reloaded_from q3 htok
    rw [v1]
    rcases c4 t₀ ht₀ with ⟨b, _, eb⟩ | ⟨_, s, eb, hs⟩
    · left; rw [eb]; rfl
    · right
      refine ⟨s, eb, ?_⟩
      rcases hs with hs | hs | ⟨x, hx, hc⟩
      · exact .inl hs
      · exact .inr (.inl hs)
      · rcases hc with ⟨_, ⟨part, hpart, hinfix⟩, k4, k9⟩ | ⟨hc | hc, _⟩
        · refine .inr (.inr ⟨?_, (C83_admits s).1 ?_, x, ?_, ?_⟩)
          · rw [← eb]
            rw [e4] at k4
            exact k4
          · simp only [Cli.optional, regexFile, hallow] at h3
            cases hre : loadRegex (enc exactRegexFile.toList) with
            | error e =>
              have h3' : (Except.error e : Res (Option Regex)) = .ok allow := by
                rw [← h3]
                simp only [unwrap, bind, Except.bind, hre]
                rfl
              cases h3'
            | ok re =>
              have h3' : (Except.ok (some re) : Res (Option Regex)) = .ok allow := by
                rw [← h3]
                simp only [unwrap, bind, Except.bind, hre]
                rfl
              cases h3'
              exact ⟨re, hre, k9 _ (by rw [e1]; rfl)⟩
          · rw [← flatMap_texts]
            exact hx
          · have : partsOf g x = [x] := by
              unfold partsOf
              rw [fed_split hfed]
            rw [this, List.mem_singleton] at hpart
            rw [← hpart]
            exact hinfix
        · exact .inl (e2 ▸ hc)
        · exact .inr (.inl (e3 ▸ hc))

/-- **C98** (pruning) If a recipe for pruning succeeds on a tokenizer as the recipe for the initial vocabulary promises it, then
it leaves one of at most 32000 tokens that has all that was promised, and no other file is touched. -/
theorem C98_prune (env : Env F64) (laws : EnvLaws env) (hN : SerdeDoubles env.numbers) (float : Str → Option F64)
    (output dropout : String) (d shrink : F64) (hd : float dropout.toList = some d) (hs : float "0.8".toList = some shrink)
    (texts added suggested : List Str) (fs fs' : Files) (t : Tokenizer F64)
    (ht : fromFile env.numbers fs "hub/vocab/v2/exact-500k-init.json".toList = .ok t) (hdel : Delivered texts added suggested 500000 t)
    (h : Main env float (args (Recipes.prune output dropout)) fs 0 fs') :
    (∃ u, fromFile env.numbers fs' output.toList = .ok u ∧ Delivered texts added suggested 32000 u) ∧
    ∀ path, path ≠ output.toList → fs' path = fs path := by
  have hr := main_runs (C98_prune_flags float output dropout d hd shrink hs) h
  obtain ⟨contents, hg, e⟩ := hr
  refine ⟨?_, ?_⟩
  swap
  · intro path hne
    rw [e]
    exact if_neg hne
  have hg' : Prunes env _ fs contents := hg
  have hself : fs' output.toList = some contents := by rw [e]; exact write_self
  obtain ⟨u, hu⟩ := C86_prune env laws hN _ fs contents hg' fs' output.toList hself
  obtain ⟨w, hw, hlen, hholds⟩ := C71_prune env laws _ fs contents hg' t ht (by
    have := hdel.atMost
    show t.model.vocab.length ≤ _
    omega)
  obtain ⟨q1, q2, q3⟩ := (hholds fs' _ hself).2 u hu
  have hback : ∀ token ∈ u.model.vocab, ∃ t₀ ∈ t.model.vocab, token.value = t₀.value ∧ token.keep = t₀.keep := by
    intro token htok
    obtain ⟨t₁, ht₁, v1, v2⟩ := reloaded_from q3 htok
    obtain ⟨t₀, ht₀, v3, v4⟩ := prunedTo_value hw ht₁
    exact ⟨t₀, ht₀, v1.trans v3.symm, v2.trans v4.symm⟩
  have hfwd : ∀ t₀ ∈ t.model.vocab, t₀.keep = true → ∃ token ∈ u.model.vocab, token.value = t₀.value ∧ token.keep = true := by
    intro t₀ ht₀ hk
    obtain ⟨t₁, ht₁, v3, v4⟩ := prunedTo_keep hw ht₀ hk
    obtain ⟨token, htok, v1, v2⟩ := reloaded_to q3 ht₁
    exact ⟨token, htok, v1.trans v3, v2.trans v4⟩
  refine ⟨u, hu, q2.trans hdel.processors, q1.trans hdel.special, ?_, ?_, ?_, C86_loaded hN fs' _ u hu, ?_, ?_, ?_⟩
  · rw [← q3.length_eq]
    exact hlen
  · unfold NoDuplicates
    rw [reloaded_values q3]
    exact prunedTo_noDuplicates hw hdel.distinct
  · intro b hb
    obtain ⟨t₀, ht₀, v1, v2⟩ := hdel.complete b hb
    obtain ⟨token, htok, v3, v4⟩ := hfwd t₀ ht₀ v2
    exact ⟨token, htok, v3.trans v1, v4⟩
  · intro token htok
    obtain ⟨t₀, ht₀, v1, v2⟩ := hback token htok
    rw [v1, v2]
    exact hdel.kept t₀ ht₀
  · intro hroom s hs hlong
    obtain ⟨t₀, ht₀, v1⟩ := hdel.noneMissing hroom s hs hlong
    obtain ⟨token, htok, v3, _⟩ := hfwd t₀ ht₀ ((hdel.kept t₀ ht₀).2 (.inr ⟨s, hs, v1.symm⟩))
    exact ⟨token, htok, v3.trans v1⟩
  · intro token htok
    obtain ⟨t₀, ht₀, v1, _⟩ := hback token htok
    rw [v1]
    exact hdel.origin t₀ ht₀

/-- **C98** (use) A tokenizer as promised encodes every text, with whatever dropout, and decoding gives back the text as the
Unicode form NFC of the text with LF for CRLF. -/
theorem C98_text (N : NumText F64) (fs : Files) (path : Str) (texts added suggested : List Str) (size : Nat) (t : Tokenizer F64)
    (ht : fromFile N fs path = .ok t) (hdel : Delivered texts added suggested size t) (norm : UnicodeForm → Str → Str) (s : Str)
    (dropout : F64) (rnd : Nat → F64) :
    (∃ ids, t.encodeOrdinary norm s dropout rnd = .ok ids ∧ ∀ flag, t.decode ids flag = .ok (norm .nfc (dropCrBeforeLf s))) ∧
    ∃ ids, t.encode norm s dropout rnd = .ok ids := by
  obtain ⟨text, _, hs⟩ := fromFile_ok ht
  obtain ⟨hwf, _⟩ := fromStr_plain hs
  refine ⟨?_, encode_total norm hwf hdel.complete (by rw [hdel.special]; decide +kernel) s dropout rnd⟩
  have hb : Tokenizer.build t.model.vocab t.processors t.specialTokens [] = t := hwf.rebuild
  have h26 := fun flag => C26_processors norm t.model.vocab t.processors t.specialTokens [] s dropout rnd flag
  simp only [hb] at h26
  have hproc : t.processors.foldl (fun s p => p.preprocess norm s) s = norm .nfc (dropCrBeforeLf s) := by
    rw [hdel.processors, ← C25_crlf_exact (norm := norm) s]
    rfl
  rw [hproc] at h26
  obtain ⟨ids, hids⟩ := C04_dropout_total t.model.vocab (norm .nfc (dropCrBeforeLf s)) dropout rnd
    (fun b hb => by
      obtain ⟨x, hx, e, _⟩ := hdel.complete b (enc_ne_255 _ b hb)
      exact ⟨x, hx, e⟩)
  have h1 := (h26 true).1
  have hg : givenBase t.model.vocab ([] : List (Tokenizer.Op F64)) = t.model.vocab := by simp [givenBase]
  rw [hg, hids] at h1
  exact ⟨ids, h1, fun flag => (h26 flag).2 ids h1⟩

/-- **C98** (all together) If the recipes for white space, for the initial vocabulary and for pruning succeed one after the
other, then what they leave is a tokenizer of at most 32000 tokens in which all runs of spaces that were found, of 2 to 32, are
protected tokens. -/
theorem C98_pipeline (env : Env F64) (laws : EnvLaws env) (find : FindLaws env.findIter) (hN : SerdeDoubles env.numbers)
    (float : Str → Option F64) (output dropout : String) (p d shrink : F64) (hp : float "0.01".toList = some p)
    (hd : float dropout.toList = some d) (hs : float "0.8".toList = some shrink) (fs fs₁ fs₂ fs₃ : Files)
    (hallow : fs "data/exact.regex".toList = some (enc exactRegexFile.toList))
    (hmine : Main env float (args Recipes.whitespace) fs 0 fs₁)
    (hgen : Main env float (args Recipes.init) fs₁ 0 fs₂)
    (hprune : Main env float (args (Recipes.prune output dropout)) fs₂ 0 fs₃) :
    ∃ texts lang whitespace punct t, TrainingTexts env.norm env.parse fs₁ [.crlf, .unicode .nfc]
        ((("infilling" :: languages).map fun lang => lang ++ ":./hub/data/train/" ++ lang ++ ".bin" ++ "").map String.toList) texts ∧
      StringsFile env.numbers fs "hub/tokens/lang.json".toList lang ∧
      StringsFile env.numbers fs "hub/tokens/punct.json".toList punct ∧
      (whitespace.Nodup ∧ ∀ w ∈ whitespace, ∃ n, 1 ≤ n ∧ n ≤ 32 ∧ w = List.replicate n ' ') ∧
      fromFile env.numbers fs₃ output.toList = .ok t ∧ Delivered texts.flatten (lang ++ whitespace) punct 32000 t := by
  obtain ⟨⟨idioms, hi, hnd, hidioms⟩, hother⟩ := C98_mine env laws find float fs fs₁ hmine
  obtain ⟨⟨texts, lang, whitespace, punct, t, h0, h1, h2, h3, h4, h5⟩, _⟩ := C98_generate env laws hN float p hp fs₁ fs₂
    (by rw [hother _ (by decide +kernel)]; exact hallow) hgen
  obtain ⟨⟨u, h6, h7⟩, _⟩ := C98_prune env laws hN float output dropout d shrink hd hs _ _ _ fs₂ fs₃ t h4 h5 hprune
  obtain rfl := stringsFile_unique hi h2
  have hsame : ∀ {path strings}, path ≠ "hub/tokens/whitespace.json".toList → StringsFile env.numbers fs₁ path strings →
      StringsFile env.numbers fs path strings := by
    rintro path strings hne ⟨text, items, k1, k2⟩
    exact ⟨text, items, (hother _ hne).symm.trans k1, k2⟩
  exact ⟨texts, lang, idioms, punct, u, h0, hsame (by decide +kernel) h1, hsame (by decide +kernel) h3, ⟨hnd, hidioms⟩, h6, h7⟩

/-! ### The recipes for white space and for the initial vocabulary can succeed -/

/-- **C98** (white space) If the training files can be read, the recipe for white space can succeed. -/
theorem C98_mine_succeeds (env : Env F64) (laws : EnvLaws env) (float : Str → Option F64) (fs : Files) (texts : List (List Str))
    (htexts : TrainingTexts env.norm env.parse fs [] ((("infilling" :: languages).map fun lang =>
      lang ++ ":./hub/data/train/" ++ lang ++ ".bin" ++ ":0.25").map String.toList) texts) :
    ∃ fs', Main env float (args Recipes.whitespace) fs 0 fs' := by
  obtain ⟨train, hl, _⟩ := (loadAll_texts ..).2 htexts
  have hp : (loadPatterns ["[ ]{1,32}".toList]).isOk = true := by decide +kernel
  cases hq : loadPatterns ["[ ]{1,32}".toList] with
  | error e => rw [hq] at hp; cases hp
  | ok patterns =>
    obtain ⟨hv, hlen⟩ := loadPatterns_ok hq
    obtain ⟨re, hre, _⟩ := C53_mine patterns (by rintro rfl; simp at hlen) fun x hx => by
      rw [Regex.new, hv x hx]
      rfl
    obtain ⟨idioms, hm⟩ := (C47_mine (env.findIter re) env.shard env.byFreq laws.byFreq 100
      (train.flatMap Source.processedSamples)).1
    exact ⟨_, .run (C98_mine_flags float) ⟨_, ⟨train, _, patterns, re, idioms, by simp, by simp, hl, .refl _, hq, hre, hm, rfl⟩, rfl⟩⟩

theorem feedAll_exists (shard : Str → Nat) : ∀ (train : List Source) (g : Generator F64), ∃ g', FeedAll shard train g g' := by
  intro train
  induction train with
  | nil => exact fun g => ⟨g, .nil g⟩
  | cons source train ih =>
    intro g
    obtain ⟨g₁, h1⟩ := (C46_feed g shard source.processedSamples).1 unit_f64
    obtain ⟨g₂, h2⟩ := ih g₁
    exact ⟨g₂, .cons h1 h2⟩

/-- **C98** (generating) If the training files and the lists of tokens can be read, and have reasonable sizes, the recipe for the
initial vocabulary can succeed. -/
theorem C98_generate_succeeds {ε : ℝ} (L : LnWithin ε) (hε : ε ≤ (1 / 2) ^ 40) (env : Env F64) (laws : EnvLaws env)
    (float : Str → Option F64) (p : F64) (hp : float "0.01".toList = some p) (fs : Files)
    (hallow : fs "data/exact.regex".toList = some (enc exactRegexFile.toList)) (texts : List (List Str))
    (htexts : TrainingTexts env.norm env.parse fs [.crlf, .unicode .nfc] ((("infilling" :: languages).map fun lang =>
      lang ++ ":./hub/data/train/" ++ lang ++ ".bin" ++ "").map String.toList) texts) (lang whitespace punct : List Str)
    (hlang : StringsFile env.numbers fs "hub/tokens/lang.json".toList lang)
    (hwhite : StringsFile env.numbers fs "hub/tokens/whitespace.json".toList whitespace)
    (hpunct : StringsFile env.numbers fs "hub/tokens/punct.json".toList punct)
    (hlen : ∀ s ∈ lang ++ whitespace ++ punct, (enc s).length ≤ 2 ^ 20)
    (hcount : texts.flatten.length + (lang ++ whitespace ++ punct).length ≤ 2 ^ 44) :
    ∃ fs', Main env float (args Recipes.init) fs 0 fs' := by
  obtain ⟨train, hl, htr⟩ := (loadAll_texts ..).2 htexts
  have hre : (loadRegex (enc exactRegexFile.toList)).isOk = true := by
    obtain ⟨re, h1, _⟩ := (C83_admits ['a']).2 (.inl ⟨'a', rfl, by decide⟩)
    rw [h1]
    rfl
  cases hre' : loadRegex (enc exactRegexFile.toList) with
  | error e => rw [hre'] at hre; cases hre
  | ok re =>
    have hallow' : Cli.optional (regexFile fs) (some "data/exact.regex".toList) = .ok (some re) := by
      simp only [Cli.optional, regexFile, hallow, unwrap, bind, Except.bind, hre']
      rfl
    obtain ⟨g, hfeed⟩ := feedAll_exists env.shard train (Generator.new 16 p none (some re.isMatch) (lang ++ whitespace) punct)
    have hfed' := feedAll_all hfeed (.new (max := 16) (prob := p) (split := none) (allow := some re.isMatch) (added := lang ++ whitespace)
      (suggested := punct))
    rw [List.nil_append] at hfed'
    obtain ⟨sels, hsels, hfreq, _, _, _⟩ := Generator.fed_facts hfed'
    have hnum : sels.length = texts.flatten.length := by
      rw [← hsels.length_eq, flatMap_texts, htr]
    have hbound : ∀ s, frequency g s ≤ 2 ^ 44 := by
      intro s
      rw [hfreq]
      have h1 := List.count_le_length (a := s) (l := lang ++ whitespace)
      have h2 := List.count_le_length (a := s) (l := punct)
      have h3 := List.countP_le_length (p := fun sel : List Str => decide (s ∈ sel)) (l := sels)
      rw [List.length_append] at hcount
      omega
    have hlong : ∀ s, 0 < frequency g s → (enc s).length ≤ 2 ^ 20 := by
      intro s hs
      by_cases hin : s ∈ lang ++ whitespace ++ punct
      · exact hlen s hin
      · rw [List.mem_append, not_or] at hin
        rw [hfreq, List.count_eq_zero_of_not_mem hin.1, List.count_eq_zero_of_not_mem hin.2, Nat.zero_add] at hs
        obtain ⟨sel, h1, h2⟩ := List.countP_pos_iff.1 hs
        have h3 : s ∈ sel := by simpa using h2
        obtain ⟨i, hi⟩ := List.mem_iff_getElem?.1 h1
        obtain ⟨x, _, hx⟩ := forall₂_right hsels hi
        rcases hx.sound s h3 with ⟨_, _, h4, _⟩ | ⟨h4 | h4, _⟩
        · have h5 : (enc s).length ≤ 16 := h4
          omega
        · exact absurd h4 hin.1
        · exact absurd h4 hin.2
    obtain ⟨w, hw, _⟩ := C97_generate L hε 16 p none (some re.isMatch) _ _ _ g hfed' env.byFreq laws.byFreq env.byScore laws.byScore
      500000 (by norm_num) (fun s => by
        have h1 := hbound s
        refine ⟨by omega, ?_⟩
        by_cases h0 : 0 < frequency g s
        · have := Nat.mul_le_mul h1 (hlong s h0)
          rw [← Nat.pow_add] at this
          exact this
        · have : frequency g s = 0 := by omega
          rw [this]
          omega) hlong g.frequencies (.refl _)
    refine ⟨_, .run (C98_generate_flags float p hp) ⟨_, ⟨[.crlf, .unicode .nfc], train, some re, none, lang ++ whitespace, punct, g, w,
      by dsimp only; decide +kernel, hl, hallow', rfl, loadTokens_iff.2 ⟨[lang, whitespace], .cons hlang (.cons hwhite .nil), by simp⟩,
      loadTokens_iff.2 ⟨[punct], .cons hpunct .nil, by simp⟩, hfeed, ⟨_, .refl _, hw⟩, rfl⟩, rfl⟩⟩

end

/-! ### Non-vacuity -/

/-- Every training file holds four times two spaces; one token is to be added; nothing is suggested. -/
def recipeFiles : Files := fun p =>
  if p = "data/exact.regex".toList then some (enc exactRegexFile.toList)
  else if p = "hub/tokens/lang.json".toList then some (enc "[\"def\"]".toList)
  else if p = "hub/tokens/punct.json".toList then some (enc "[]".toList)
  else some (enc "  \x00  \x00  \x00  ".toList)

/-- A quarter. -/
def quarter : F64 := .num false (2 ^ 1072)

/-- Surroundings for the example. -/
noncomputable def recipeEnv : Env F64 := { env64 with findIter := findOne, parse := fun s => if s = "0.25".toList then some quarter else none }

theorem recipeEnv_laws [Elementary] : EnvLaws recipeEnv :=
  ⟨env64_numbers.prints, insertSorter_laws _, insertSorter_laws _, insertSorter_laws _, listStd_laws⟩

theorem recipe_source (norm : UnicodeForm → Str → Str) (parse : Str → Option F64) (fs : Files) (ps : List Processor) (lang : String)
    (hc : ':' ∉ lang.toList) (text : Str) (hf : fs ("./hub/data/train/" ++ lang ++ ".bin").toList = some (enc text)) (parts : List Str)
    (hparts : Parts '\x00' text parts) :
    (∃ texts, SourceTexts norm parse fs ps (lang ++ ":./hub/data/train/" ++ lang ++ ".bin" ++ "").toList texts ∧
      texts.length ≤ parts.length ∧ ∀ s ∈ texts, ∃ part ∈ parts, s = processed norm ps part) ∧
    ∀ x, parse "0.25".toList = some x →
      ∃ texts, SourceTexts norm parse fs ps (lang ++ ":./hub/data/train/" ++ lang ++ ".bin" ++ ":0.25").toList texts ∧
        texts.length ≤ parts.length := by
  have hc' : ':' ∉ ("./hub/data/train/" ++ lang ++ ".bin").toList := by
    simp only [String.toList_append, List.mem_append, not_or]
    exact ⟨⟨by decide, hc⟩, by decide⟩
  have hle : ∀ proportion, (nonEmpty (((nonEmpty parts).take (Source.quota (nonEmpty parts).length proportion)).map
      (processed norm ps))).length ≤ parts.length := by
    intro proportion
    refine (List.length_filter_le ..).trans ?_
    rw [List.length_map, List.length_take]
    exact (Nat.min_le_right _ _).trans (List.length_filter_le ..)
  refine ⟨⟨_, ⟨lang.toList, ("./hub/data/train/" ++ lang ++ ".bin").toList, [], F64.ofNat 1, text, parts, ⟨by simp, ?_, ?_⟩,
    .inl ⟨rfl, rfl⟩, hf, hparts, rfl⟩, hle _, ?_⟩, fun x hx => ⟨_, ⟨lang.toList, ("./hub/data/train/" ++ lang ++ ".bin").toList,
    ["0.25".toList], x, text, parts, ⟨by simp, ?_, ?_⟩, .inr ⟨_, rfl, hx⟩, hf, hparts, rfl⟩, hle _⟩⟩
  · intro part hp
    simp only [List.mem_cons, List.not_mem_nil, or_false] at hp
    rcases hp with rfl | rfl
    · exact hc
    · exact hc'
  · simp only [String.toList_append, List.intercalate, List.intersperse, List.flatten_cons, List.flatten_nil, List.append_nil, List.append_assoc]
    rfl
  · intro s hs
    obtain ⟨part, hp, rfl⟩ := List.mem_map.1 (List.mem_of_mem_filter hs)
    exact ⟨part, List.mem_of_mem_filter (List.mem_of_mem_take hp), rfl⟩
  · intro part hp
    simp only [List.mem_cons, List.not_mem_nil, or_false] at hp
    rcases hp with rfl | rfl | rfl
    · exact hc
    · exact hc'
    · decide
  · simp only [String.toList_append, List.intercalate, List.intersperse, List.flatten_cons, List.flatten_nil, List.append_nil, List.append_assoc]
    rfl

theorem languages_colon : ∀ lang ∈ "infilling" :: languages, ':' ∉ lang.toList := by decide +kernel

theorem recipe_paths : ∀ lang ∈ "infilling" :: languages, ("./hub/data/train/" ++ lang ++ ".bin").toList.head? = some '.' := by
  intro lang _
  rw [String.toList_append, String.toList_append]
  rfl

theorem recipe_training (fs : Files)
    (hfs : ∀ path : Str, path.head? = some '.' → fs path = some (enc "  \x00  \x00  \x00  ".toList)) (ps : List Processor) :
    (∃ texts, TrainingTexts recipeEnv.norm recipeEnv.parse fs ps ((("infilling" :: languages).map fun lang =>
      lang ++ ":./hub/data/train/" ++ lang ++ ".bin" ++ "").map String.toList) texts ∧ texts.flatten.length ≤ 1000 ∧
      ∀ s ∈ texts.flatten, s = processed recipeEnv.norm ps "  ".toList) ∧
    (∃ texts, TrainingTexts recipeEnv.norm recipeEnv.parse fs ps ((("infilling" :: languages).map fun lang =>
      lang ++ ":./hub/data/train/" ++ lang ++ ".bin" ++ ":0.25").map String.toList) texts) ∧
    (∃ texts, TrainingTexts recipeEnv.norm recipeEnv.parse fs ps ((languages.map fun lang =>
      lang ++ ":./hub/data/train/" ++ lang ++ ".bin" ++ ":0.25").map String.toList) texts) := by
  have hparts : Parts '\x00' "  \x00  \x00  \x00  ".toList ["  ".toList, "  ".toList, "  ".toList, "  ".toList] :=
    ⟨by simp, by decide, by decide⟩
  have hsource := fun lang (h : lang ∈ "infilling" :: languages) => recipe_source recipeEnv.norm recipeEnv.parse fs ps lang
    (languages_colon lang h) _ (hfs _ (recipe_paths lang h)) _ hparts
  have hall : ∀ (P : List Str → Prop) (suffix : String) (l : List String), (∀ lang ∈ l, ∃ texts, SourceTexts recipeEnv.norm recipeEnv.parse fs ps
      (lang ++ ":./hub/data/train/" ++ lang ++ ".bin" ++ suffix).toList texts ∧ texts.length ≤ 4 ∧ P texts) →
      ∃ texts, TrainingTexts recipeEnv.norm recipeEnv.parse fs ps ((l.map fun lang =>
        lang ++ ":./hub/data/train/" ++ lang ++ ".bin" ++ suffix).map String.toList) texts ∧ texts.flatten.length ≤ 4 * l.length ∧
          ∀ t ∈ texts, P t := by
    intro P suffix l
    induction l with
    | nil => exact fun _ => ⟨[], .nil, by simp, by simp⟩
    | cons lang l ih =>
      intro h
      obtain ⟨texts, h1, h2, h5⟩ := h lang (by simp)
      obtain ⟨rest, h3, h4, h6⟩ := ih fun x hx => h x (by simp [hx])
      refine ⟨texts :: rest, .cons h1 h3, ?_, ?_⟩
      · rw [List.flatten_cons, List.length_append, List.length_cons]
        omega
      · intro t ht
        rcases List.mem_cons.1 ht with rfl | ht
        · exact h5
        · exact h6 t ht
  have hquarter : recipeEnv.parse "0.25".toList = some quarter := by
    show (if "0.25".toList = "0.25".toList then some quarter else none) = _
    exact if_pos rfl
  refine ⟨?_, ?_, ?_⟩
  · obtain ⟨texts, h1, h2, h3⟩ := hall (fun texts => ∀ s ∈ texts, s = processed recipeEnv.norm ps "  ".toList) "" ("infilling" :: languages)
      fun lang h => by
        obtain ⟨texts, h1, h2, h3⟩ := (hsource lang h).1
        refine ⟨texts, h1, h2, fun s hs => ?_⟩
        obtain ⟨part, hp, rfl⟩ := h3 s hs
        simp only [List.mem_cons, List.not_mem_nil, or_false, or_self] at hp
        rw [hp]
    refine ⟨texts, h1, h2.trans (by decide), fun s hs => ?_⟩
    obtain ⟨l, hl, hsl⟩ := List.mem_flatten.1 hs
    exact h3 l hl s hsl
  · obtain ⟨texts, h1, _⟩ := hall (fun _ => True) ":0.25" ("infilling" :: languages) fun lang h => by
      obtain ⟨texts, h1, h2⟩ := (hsource lang h).2 quarter hquarter
      exact ⟨texts, h1, h2, trivial⟩
    exact ⟨texts, h1⟩
  · obtain ⟨texts, h1, _⟩ := hall (fun _ => True) ":0.25" languages fun lang h => by
      obtain ⟨texts, h1, h2⟩ := (hsource lang (by simp [h])).2 quarter hquarter
      exact ⟨texts, h1, h2, trivial⟩
    exact ⟨texts, h1⟩

/-- The hypotheses of C98 are met: with these files, the three recipes can succeed one after the other. -/
theorem recipes_run : ∃ _E : Elementary, ∃ (float : Str → Option F64) (p d shrink : F64) (fs₁ fs₂ fs₃ : Files),
    float "0.01".toList = some p ∧ float "0.0".toList = some d ∧ float "0.8".toList = some shrink ∧
    EnvLaws recipeEnv ∧ FindLaws recipeEnv.findIter ∧ SerdeDoubles recipeEnv.numbers ∧
    recipeFiles "data/exact.regex".toList = some (enc exactRegexFile.toList) ∧
    Main recipeEnv float (args Recipes.whitespace) recipeFiles 0 fs₁ ∧
    Main recipeEnv float (args Recipes.init) fs₁ 0 fs₂ ∧
    Main recipeEnv float (args (Recipes.prune "hub/vocab/v2/exact-32k-dropout-00-pruned.json" "0.0")) fs₂ 0 fs₃ := by
  obtain ⟨E, hE, _⟩ := ln_exists
  let float : Str → Option F64 := fun _ => some quarter
  have hallow : recipeFiles "data/exact.regex".toList = some (enc exactRegexFile.toList) := if_pos rfl
  have hdot : ∀ path : Str, path.head? = some '.' → recipeFiles path = some (enc "  \x00  \x00  \x00  ".toList) := by
    intro path h
    unfold recipeFiles
    rw [if_neg (by rintro rfl; revert h; decide), if_neg (by rintro rfl; revert h; decide), if_neg (by rintro rfl; revert h; decide)]
  obtain ⟨texts, htexts⟩ := (recipe_training recipeFiles hdot []).2.1
  obtain ⟨fs₁, h1⟩ := C98_mine_succeeds recipeEnv recipeEnv_laws float recipeFiles texts htexts
  obtain ⟨⟨idioms, hi, hnd, hidioms⟩, hother⟩ := C98_mine recipeEnv recipeEnv_laws findOne_laws float _ _ h1
  have hdot₁ : ∀ path : Str, path.head? = some '.' → fs₁ path = some (enc "  \x00  \x00  \x00  ".toList) := by
    intro path h
    rw [hother _ (by rintro rfl; revert h; decide)]
    exact hdot path h
  have hlang : StringsFile recipeEnv.numbers fs₁ "hub/tokens/lang.json".toList ["def".toList] := by
    refine ⟨"[\"def\"]".toList, _, ?_, rfl, ?_⟩
    · rw [hother _ (by decide +kernel)]
      rfl
    · exact .cons ⟨_, rfl, rfl⟩ .nil
  have hpunct : StringsFile recipeEnv.numbers fs₁ "hub/tokens/punct.json".toList [] := by
    refine ⟨"[]".toList, [], ?_, rfl, .nil⟩
    rw [hother _ (by decide +kernel)]
    rfl
  have hshort : ∀ w ∈ idioms, (enc w).length ≤ 32 := by
    intro w hw
    obtain ⟨n, _, hn, rfl⟩ := hidioms w hw
    have : ∀ n, (enc (List.replicate n ' ')).length = n := by
      intro n
      induction n with
      | zero => rfl
      | succ n ih => rw [List.replicate_succ, enc_cons, List.length_append, ih]; show 1 + n = n + 1; omega
    rw [this]
    exact hn
  have hfew : idioms.length ≤ 33 := by
    have hsub : idioms ⊆ (List.range 33).map fun n => List.replicate n ' ' := by
      intro w hw
      obtain ⟨n, _, hn, rfl⟩ := hidioms w hw
      exact List.mem_map.2 ⟨n, List.mem_range.2 (by omega), rfl⟩
    have := (List.subperm_of_subset hnd hsub).length_le
    simpa using this
  obtain ⟨texts₁, htexts₁, hcount, hsamples⟩ := (recipe_training fs₁ hdot₁ [.crlf, .unicode .nfc]).1
  obtain ⟨fs₂, h2⟩ := @C98_generate_succeeds E _ hE (by norm_num) recipeEnv recipeEnv_laws float quarter rfl fs₁
    (by rw [hother _ (by decide +kernel)]; exact hallow) texts₁ htexts₁ ["def".toList] idioms [] hlang hi hpunct
    (by
      intro s hs
      simp only [List.append_nil, List.singleton_append, List.mem_cons] at hs
      rcases hs with rfl | hs
      · decide
      · have := hshort s hs
        omega)
    (by
      simp only [List.append_nil, List.singleton_append, List.length_cons]
      omega)
  obtain ⟨⟨texts₂, lang, whitespace, punct, t, k0, k1, k2, k3, ht, hdel⟩, hother₂⟩ := @C98_generate E recipeEnv recipeEnv_laws env64_numbers float
    quarter rfl fs₁ fs₂ (by rw [hother _ (by decide +kernel)]; exact hallow) h2
  obtain rfl := texts_unique htexts₁ k0
  obtain rfl := stringsFile_unique hlang k1
  obtain rfl := stringsFile_unique hi k2
  obtain rfl := stringsFile_unique hpunct k3
  have hsmall : t.model.vocabSize ≤ 32000 := by
    have hsub : t.model.vocab.map (·.value) ⊆ ((List.range 256).map fun b => [UInt8.ofNat b]) ++
        (["def".toList] ++ idioms ++ [[], "  ".toList]).map enc := by
      intro v hv
      obtain ⟨token, htok, rfl⟩ := List.mem_map.1 hv
      rw [List.mem_append]
      rcases hdel.origin token htok with h | ⟨s, e, h⟩
      · left
        match hv' : token.value, h with
        | [b], _ => exact List.mem_map.2 ⟨b.toNat, List.mem_range.2 b.toNat_lt, by rw [UInt8.ofNat_toNat]⟩
      · by_cases h1 : s ∈ ["def".toList] ++ idioms ++ [[], "  ".toList]
        · exact .inr (List.mem_map.2 ⟨s, h1, e⟩)
        · rcases h with h | h | ⟨_, _, x, hx, hin⟩
          · exact absurd (List.mem_append_left _ h) h1
          · simp at h
          · rw [hsamples x hx] at hin
            have e2 : processed recipeEnv.norm [.crlf, .unicode .nfc] "  ".toList = [' ', ' '] := rfl
            rw [e2] at hin
            simp only [List.infix_cons_iff, List.prefix_cons_iff, List.prefix_nil, List.infix_nil] at hin
            left
            refine List.mem_map.2 ⟨32, List.mem_range.2 (by omega), ?_⟩
            rw [← e]
            have : s = [' '] := by
              rcases hin with (rfl | ⟨t, rfl, rfl | ⟨t', rfl, rfl⟩⟩) | (rfl | ⟨t, rfl, rfl⟩) | rfl
              · exact absurd (by simp) h1
              · rfl
              · exact absurd (by simp) h1
              · exact absurd (by simp) h1
              · rfl
              · exact absurd (by simp) h1
            rw [this]
            rfl
    have hle := (List.subperm_of_subset hdel.distinct hsub).length_le
    simp only [List.length_map, List.length_append, List.length_range, List.length_cons, List.length_nil] at hle
    show t.model.vocab.length ≤ 32000
    omega
  have hdot₂ : ∀ path : Str, path.head? = some '.' → fs₂ path = some (enc "  \x00  \x00  \x00  ".toList) := by
    intro path h
    rw [hother₂ _ (by rintro rfl; revert h; decide)]
    exact hdot₁ path h
  obtain ⟨texts₃, htexts₃⟩ := (recipe_training fs₂ hdot₂ t.processors).2.2
  obtain ⟨train, hl, _⟩ := (loadAll_texts ..).2 htexts₃
  exact ⟨E, float, quarter, quarter, quarter, fs₁, fs₂, _, rfl, rfl, rfl, recipeEnv_laws, findOne_laws, env64_numbers, hallow, h1, h2,
    .run (C98_prune_flags float _ _ quarter rfl quarter rfl) ⟨_, ⟨t, train, _, t.model, ht, hl, .refl _, ⟨.refl, by
      show ¬ t.model.vocabSize > 32000
      omega⟩, rfl⟩, rfl⟩⟩

end Tokengeex

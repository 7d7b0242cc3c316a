import Verif.Proofs.RegexText
import Verif.Proofs.Patterns
import Verif.Proofs.Utf8
/-
C53, C54, C68: patterns and the files they are kept in (src/regex.rs; `load_patterns`, `regex_cmd` and `load_regex` of
src/cli.rs).
-/
namespace Tokengeex
open Spec

/-- The matcher of the model is the meaning given to patterns in `Spec.Matches`. -/
theorem C53_isMatch (r : Regex) (s : Str) : r.isMatch s = true ↔ MatchesIn r.re s := Re.isMatch_iff r.re s

/-- **C53** For every non-empty list of patterns, each of them valid, the combined pattern is valid, and it matches exactly
the strings that one of the patterns matches as a whole. -/
theorem C53_allow (regexes : List Regex) (hne : regexes ≠ []) (hvalid : ∀ r ∈ regexes, Regex.new r.text = some r) :
    ∃ combined, buildAllowRegex regexes = .ok combined ∧
      ∀ s, combined.isMatch s = true ↔ ∃ r ∈ regexes, FullMatch r.re s := by
  obtain ⟨re, h1, h2⟩ := Re.parse_joined (mk := fun t => "^(?:".toList ++ t ++ ")$".toList)
    (items := fun re => [.stop, re, .start]) Re.anchored_ok regexes hne fun r hr => (Regex.new_some (hvalid r hr)).2
  refine ⟨⟨_, re⟩, by rw [buildAllowRegex, Regex.new, h1]; rfl, ?_⟩
  intro s
  rw [C53_isMatch]
  constructor
  · rintro ⟨before, w, after, rfl, h⟩
    obtain ⟨r, hr, h⟩ := (h2 _ _ _).1 h
    obtain ⟨rfl, rfl, h'⟩ := (Re.matches_anchored _ _ _ _).1 h
    exact ⟨r, hr, by simpa using h'⟩
  · rintro ⟨r, hr, h⟩
    exact ⟨[], s, [], by simp, (h2 _ _ _).2 ⟨r, hr, (Re.matches_anchored _ _ _ _).2 ⟨rfl, rfl, h⟩⟩⟩

/-- **C53** The pattern used for mining matches a piece of a text exactly if one of its parts does, there. -/
theorem C53_mine (regexes : List Regex) (hne : regexes ≠ []) (hvalid : ∀ r ∈ regexes, Regex.new r.text = some r) :
    ∃ combined, buildMineRegex regexes = .ok combined ∧
      ∀ before w after, Matches combined.re before w after ↔ ∃ r ∈ regexes, Matches r.re before w after := by
  obtain ⟨re, h1, h2⟩ := Re.parse_joined (mk := fun t => "(?:".toList ++ t ++ ")".toList)
    (items := fun re => [re]) Re.group_ok regexes hne fun r hr => (Regex.new_some (hvalid r hr)).2
  exact ⟨⟨_, re⟩, by rw [buildMineRegex, Regex.new, h1]; rfl, h2⟩

/-- Without patterns the combined pattern matches everything: the list must not be empty. -/
theorem C53_empty : ∃ combined, buildAllowRegex [] = .ok combined ∧ ∀ s, combined.isMatch s = true :=
  ⟨⟨[], .empty⟩, rfl, fun s => (C53_isMatch _ _).2 ⟨[], [], s, rfl, rfl⟩⟩

example : ∃ a b, Regex.new "[0-9]{1,3}".toList = some a ∧ Regex.new "ab|c".toList = some b ∧
    ∃ r, buildAllowRegex [a, b] = .ok r ∧ r.text = "^(?:[0-9]{1,3})$|^(?:ab|c)$".toList ∧ r.isMatch "12".toList = true ∧
      r.isMatch "c".toList = true ∧ r.isMatch "1234".toList = false ∧ r.isMatch "abx".toList = false := by
  refine ⟨_, _, rfl, rfl, _, rfl, rfl, ?_⟩
  decide +kernel

/-! ### C54 -/

/-- The strings a file with an allow pattern admits. -/
def Admits (file : List UInt8) (s : Str) : Prop := ∃ r, loadRegex file = .ok r ∧ r.isMatch s = true

/-- **C54**, for patterns without line breaks in their text (`\n` and `\r` written with a backslash are fine): the `regex`
command with any non-empty list of valid patterns succeeds, the file it writes holds the text of the combined pattern, and
loading that file gives the same pattern.  What is missing: patterns with raw line breaks, for which the claim is false
(`C54_false`). -/
theorem C54_partial (names : List Str) (hne : names ≠ []) (regexes : List Regex) (hload : loadPatterns names = .ok regexes)
    (hbreaks : ∀ r ∈ regexes, '\n' ∉ r.text ∧ '\r' ∉ r.text) :
    ∃ combined file, buildAllowRegex regexes = .ok combined ∧ regexCmd names = .ok file ∧ file = enc combined.text ∧
      loadRegex file = .ok combined := by
  obtain ⟨hv, hl⟩ := loadPatterns_ok hload
  have hne' : regexes ≠ [] := by
    rintro rfl
    exact hne (List.length_eq_zero_iff.1 hl.symm)
  have hvalid : ∀ r ∈ regexes, Regex.new r.text = some r := fun r hr => by rw [Regex.new, hv r hr]; rfl
  obtain ⟨combined, h1, -⟩ := C53_allow regexes hne' hvalid
  refine ⟨combined, enc combined.text, h1, ?_, rfl, ?_⟩
  · rw [regexCmd, hload]
    show (buildAllowRegex regexes >>= _) = _
    rw [h1]
    rfl
  · have ht := unwrap_ok (by rw [← h1]; rfl : unwrap (Regex.new
      (List.intercalate ['|'] (regexes.map fun r => "^(?:".toList ++ r.text ++ ")$".toList))) = .ok combined)
    have e := (Regex.new_some ht).1
    have e' : regexes.map (fun r => "^(?:".toList ++ r.text ++ ")$".toList) =
        (regexes.map (·.text)).map fun t => "^(?:".toList ++ t ++ ")$".toList := by rw [List.map_map]; rfl
    have hk := allowText_kept (regexes.map (·.text)) (by simpa using hne') (by
      intro t ht
      obtain ⟨r, hr, rfl⟩ := List.mem_map.1 ht
      exact hbreaks r hr)
    rw [← e', ← e] at hk
    rw [loadRegex, fromUtf8_enc]
    show unwrap (Regex.new (trim (combined.text.filter _))) = _
    rw [hk, e, ht]
    rfl

example : ∃ names regexes, names ≠ [] ∧ loadPatterns names = .ok regexes ∧ (∀ r ∈ regexes, '\n' ∉ r.text ∧ '\r' ∉ r.text) ∧
    names = ["newline-indent".toList, "x\\n".toList] := by
  refine ⟨["newline-indent".toList, "x\\n".toList], _, by simp, rfl, ?_, rfl⟩
  decide +kernel

/-- **C54** A file that loads never has line breaks in the text of its pattern. -/
theorem C54_loaded (file : List UInt8) (r : Regex) (h : loadRegex file = .ok r) : '\n' ∉ r.text ∧ '\r' ∉ r.text := by
  rw [loadRegex] at h
  cases hf : fromUtf8 file with
  | none => rw [hf] at h; cases h
  | some text =>
    rw [hf] at h
    have := (Regex.new_some (unwrap_ok h)).1
    rw [this]
    have hsub : ∀ {l : Str} {c : Char}, c ∈ trim l → c ∈ l := by
      intro l c hc
      unfold trim at hc
      rw [List.mem_reverse] at hc
      have := (List.dropWhile_suffix (p := isSpace) (l := (l.dropWhile isSpace).reverse)).subset hc
      rw [List.mem_reverse] at this
      exact (List.dropWhile_suffix (p := isSpace) (l := l)).subset this
    constructor
    all_goals
      intro hc
      have := (List.mem_filter.1 (hsub hc)).2
      simp at this

/-- **C54** Nor has it white space at an end of the text: ` ?foo ` in a file is read as `?foo`. -/
theorem C54_outer (file : List UInt8) (r : Regex) (h : loadRegex file = .ok r) :
    ∀ c, (r.text.head? = some c ∨ r.text.getLast? = some c) → isSpace c = false := by
  rw [loadRegex] at h
  cases hf : fromUtf8 file with
  | none => rw [hf] at h; cases h
  | some text =>
    rw [hf] at h
    have := (Regex.new_some (unwrap_ok h)).1
    rw [this]
    generalize text.filter _ = l
    intro c hc
    have key : ∀ m : Str, ∀ d, (m.dropWhile isSpace).head? = some d → isSpace d = false := by
      intro m d hd
      have := List.head?_dropWhile_not isSpace m
      rw [hd] at this
      simpa using this
    unfold trim at hc
    rcases hc with hc | hc
    · refine key l c ?_
      rw [List.head?_reverse] at hc
      have hs := List.dropWhile_suffix (p := isSpace) (l := (l.dropWhile isSpace).reverse)
      obtain ⟨t, ht⟩ := hs
      have h2 : (l.dropWhile isSpace).reverse.getLast? = some c := by
        rw [← ht, List.getLast?_append, hc]; rfl
      rwa [List.getLast?_reverse] at h2
    · rw [List.getLast?_reverse] at hc
      exact key _ c hc

/-- A file with a space at each end and a line break inside. -/
example : ∃ r, loadRegex (enc " a|\nb ".toList) = .ok r ∧ r.text = "a|b".toList := ⟨_, rfl, by decide +kernel⟩

/-- **C54** (exact) The file that the `regex` command writes for valid patterns loads as the combined pattern exactly if no
pattern has a raw line break in its text. -/
theorem C54_exact (names : List Str) (hne : names ≠ []) (regexes : List Regex) (hload : loadPatterns names = .ok regexes) :
    ∃ combined file, buildAllowRegex regexes = .ok combined ∧ regexCmd names = .ok file ∧ file = enc combined.text ∧
      (loadRegex file = .ok combined ↔ ∀ r ∈ regexes, '\n' ∉ r.text ∧ '\r' ∉ r.text) := by
  obtain ⟨hv, hl⟩ := loadPatterns_ok hload
  have hne' : regexes ≠ [] := by
    rintro rfl
    exact hne (List.length_eq_zero_iff.1 hl.symm)
  have hvalid : ∀ r ∈ regexes, Regex.new r.text = some r := fun r hr => by rw [Regex.new, hv r hr]; rfl
  obtain ⟨combined, h1, -⟩ := C53_allow regexes hne' hvalid
  refine ⟨combined, enc combined.text, h1, ?_, rfl, ?_, ?_⟩
  · rw [regexCmd, hload]
    show (buildAllowRegex regexes >>= _) = _
    rw [h1]
    rfl
  · intro h r hr
    have hb := C54_loaded _ _ h
    have ht := (Regex.new_some (unwrap_ok h1)).1
    have hsub : ∀ c ∈ r.text, c ∈ combined.text := by
      intro c hc
      rw [ht]
      have hm : "^(?:".toList ++ r.text ++ ")$".toList ∈ regexes.map fun r => "^(?:".toList ++ r.text ++ ")$".toList :=
        List.mem_map_of_mem hr
      have hin : ∀ (l : List Str) (x : Str), x ∈ l → c ∈ x → c ∈ List.intercalate ['|'] l := by
        intro l
        induction l with
        | nil => intro x hx; simp at hx
        | cons a l ih =>
          intro x hx hcx
          cases l with
          | nil =>
            rw [List.mem_singleton] at hx
            subst hx
            simpa [List.intercalate] using hcx
          | cons b l =>
            have e : List.intercalate ['|'] (a :: b :: l) = a ++ ['|'] ++ List.intercalate ['|'] (b :: l) := by
              simp [List.intercalate]
            rw [e]
            rcases List.mem_cons.1 hx with rfl | hx
            · simp [hcx]
            · exact List.mem_append_right _ (ih x hx hcx)
      exact hin _ _ hm (by simp [hc])
    exact ⟨fun h => hb.1 (hsub _ h), fun h => hb.2 (hsub _ h)⟩
  · intro hbreaks
    obtain ⟨c, f, g1, _, g3, g4⟩ := C54_partial names hne regexes hload hbreaks
    rw [h1] at g1
    cases g1
    rw [g3] at g4
    exact g4

/-- **C54** is false as stated: the pattern `a⏎b`, with a raw line break, is written as it is and loads as `ab`: the file
admits `ab`, which the pattern does not match, and not `a⏎b`, which it does. -/
theorem C54_false : ∃ pattern r combined file, loadPatterns [pattern] = .ok [r] ∧ buildAllowRegex [r] = .ok combined ∧
    regexCmd [pattern] = .ok file ∧ loadRegex file ≠ .ok combined ∧
    (FullMatch r.re "a\nb".toList ∧ ¬ Admits file "a\nb".toList) ∧ ¬ FullMatch r.re "ab".toList ∧ Admits file "ab".toList := by
  have hre : Re.parse "a\nb".toList = some (.cat (.cat (Re.lit 'a') (Re.lit '\n')) (Re.lit 'b')) := by decide +kernel
  have hl : loadPatterns ["a\nb".toList] = .ok [⟨"a\nb".toList, .cat (.cat (Re.lit 'a') (Re.lit '\n')) (Re.lit 'b')⟩] := by
    decide +kernel
  obtain ⟨c, hc, hm⟩ := C53_allow [⟨"a\nb".toList, .cat (.cat (Re.lit 'a') (Re.lit '\n')) (Re.lit 'b')⟩] (by simp)
    (by intro r hr; rw [List.mem_singleton.1 hr, Regex.new, hre]; rfl)
  have hcmd : regexCmd ["a\nb".toList] = .ok (enc "^(?:a\nb)$".toList) := by decide +kernel
  have hload : loadRegex (enc "^(?:a\nb)$".toList) = .ok ⟨"^(?:ab)$".toList, .cat (.cat .start
      (.cat (Re.lit 'a') (Re.lit 'b'))) .stop⟩ := by decide +kernel
  have hlow : ∀ s, Admits (enc "^(?:a\nb)$".toList) s ↔ Re.isMatch (.cat (.cat .start
      (.cat (Re.lit 'a') (Re.lit 'b'))) .stop) s = true := by
    intro s
    constructor
    · rintro ⟨r, h1, h2⟩
      rw [hload] at h1
      cases h1
      exact h2
    · exact fun h => ⟨_, hload, h⟩
  have hfull : ∀ s, FullMatch (.cat (.cat (Re.lit 'a') (Re.lit '\n')) (Re.lit 'b')) s ↔ c.isMatch s = true := by
    intro s
    rw [hm s]
    simp
  have hce : c = ⟨"^(?:a\nb)$".toList, .cat (.cat .start (.cat (.cat (Re.lit 'a') (Re.lit '\n')) (Re.lit 'b'))) .stop⟩ := by
    have : buildAllowRegex [⟨"a\nb".toList, .cat (.cat (Re.lit 'a') (Re.lit '\n')) (Re.lit 'b')⟩] =
        .ok ⟨"^(?:a\nb)$".toList, .cat (.cat .start (.cat (.cat (Re.lit 'a') (Re.lit '\n')) (Re.lit 'b'))) .stop⟩ := by
      decide +kernel
    rw [this] at hc
    exact (Except.ok.inj hc).symm
  refine ⟨_, _, c, _, hl, hc, hcmd, ?_, ⟨?_, ?_⟩, ?_, ?_⟩
  · rw [hload, hce]
    intro h
    have := congrArg Regex.text (Except.ok.inj h)
    revert this
    decide +kernel
  · rw [hfull, hce]; decide +kernel
  · rw [hlow]; decide +kernel
  · rw [hfull, hce]; decide +kernel
  · rw [hlow]; decide +kernel

/-! ### C68: the named patterns -/

/-- **C68** All 37 named patterns are valid, their names are distinct, and a name stands for its own pattern. -/
theorem C68_named : (NamedPattern.table.map (·.name)).Nodup ∧ NamedPattern.table.length = 37 ∧
    ∀ p ∈ NamedPattern.table, ∃ r, loadPattern p.name = .ok r ∧ r.text = p.text ∧ Regex.new p.text = some r ∧
      '\n' ∉ r.text ∧ '\r' ∉ r.text := by
  have h : (NamedPattern.table.map (·.name)).Nodup ∧ NamedPattern.table.length = 37 ∧
      NamedPattern.table.all (fun p => match loadPattern p.name with
        | .ok r => decide (r.text = p.text ∧ Regex.new p.text = some r ∧ '\n' ∉ r.text ∧ '\r' ∉ r.text)
        | .error _ => false) = true := by decide +kernel
  refine ⟨h.1, h.2.1, ?_⟩
  intro p hp
  have := List.all_eq_true.1 h.2.2 p hp
  cases hl : loadPattern p.name with
  | error e => rw [hl] at this; cases this
  | ok r =>
    rw [hl] at this
    exact ⟨r, rfl, of_decide_eq_true this⟩

theorem nodup_map_inj {α β : Type} {f : α → β} : ∀ {l : List α}, (l.map f).Nodup → ∀ {a b}, a ∈ l → b ∈ l → f a = f b → a = b := by
  intro l
  induction l with
  | nil => intro _ a b h; cases h
  | cons x l ih =>
    intro hn a b ha hb e
    rw [List.map_cons, List.nodup_cons] at hn
    rcases List.mem_cons.1 ha with ea | ha'
    · rcases List.mem_cons.1 hb with eb | hb'
      · rw [ea, eb]
      · rw [← ea, e] at hn; exact absurd (List.mem_map_of_mem hb') hn.1
    · rcases List.mem_cons.1 hb with eb | hb'
      · rw [← eb, ← e] at hn; exact absurd (List.mem_map_of_mem ha') hn.1
      · exact ih hn.2 ha' hb' e

/-- **C68** The `regex` command succeeds with every non-empty list of pattern names, and the file it writes loads and admits
exactly the strings that one of the named patterns matches as a whole. -/
theorem C68_command (names : List Str) (hne : names ≠ []) (hnames : ∀ n ∈ names, ∃ p ∈ NamedPattern.table, p.name = n) :
    ∃ file, regexCmd names = .ok file ∧ ∀ s, Admits file s ↔
      ∃ n ∈ names, ∃ p ∈ NamedPattern.table, p.name = n ∧ ∃ re, Re.parse p.text = some re ∧ FullMatch re s := by
  have hload : ∃ regexes, loadPatterns names = .ok regexes ∧ (∀ r ∈ regexes, '\n' ∉ r.text ∧ '\r' ∉ r.text) ∧
      ∀ re, (∃ r ∈ regexes, r.re = re) ↔ ∃ n ∈ names, ∃ p ∈ NamedPattern.table, p.name = n ∧ Re.parse p.text = some re := by
    clear hne
    induction names with
    | nil => exact ⟨[], rfl, by simp, by simp⟩
    | cons n names ih =>
      obtain ⟨rs, h1, h2, h3⟩ := ih fun n hn => hnames n (List.mem_cons_of_mem _ hn)
      obtain ⟨p, hp, rfl⟩ := hnames _ List.mem_cons_self
      obtain ⟨r, hr, ht, hnew, hb⟩ := C68_named.2.2 p hp
      have huniq : ∀ q ∈ NamedPattern.table, q.name = p.name → q = p := fun q hq e =>
        nodup_map_inj C68_named.1 hq hp e
      refine ⟨r :: rs, ?_, ?_, ?_⟩
      · rw [loadPatterns] at h1 ⊢
        rw [List.mapM_cons, hr, h1]
        rfl
      · intro x hx
        rcases List.mem_cons.1 hx with rfl | hx
        · exact hb
        · exact h2 x hx
      · intro re
        simp only [List.mem_cons, exists_eq_or_imp, h3 re]
        refine or_congr ?_ Iff.rfl
        constructor
        · rintro rfl
          exact ⟨p, hp, rfl, (Regex.new_some hnew).2⟩
        · rintro ⟨q, hq, e, hre⟩
          rw [huniq q hq e, (Regex.new_some hnew).2] at hre
          exact Option.some.inj hre
  obtain ⟨rs, h1, h2, h3⟩ := hload
  obtain ⟨hv, hl⟩ := loadPatterns_ok h1
  obtain ⟨combined, file, h4, h5, -, h7⟩ := C54_partial names hne rs h1 h2
  obtain ⟨combined', h8, h9⟩ := C53_allow rs (by rintro rfl; exact hne (List.length_eq_zero_iff.1 hl.symm))
    (fun r hr => by rw [Regex.new, hv r hr]; rfl)
  rw [h4] at h8
  cases h8
  refine ⟨file, h5, ?_⟩
  intro s
  constructor
  · rintro ⟨r, hr, hs⟩
    rw [h7] at hr
    cases hr
    obtain ⟨r, hr, hs⟩ := (h9 s).1 hs
    obtain ⟨n, hn, p, hp, e, hre⟩ := (h3 r.re).1 ⟨r, hr, rfl⟩
    exact ⟨n, hn, p, hp, e, r.re, hre, hs⟩
  · rintro ⟨n, hn, p, hp, e, re, hre, hs⟩
    obtain ⟨r, hr, rfl⟩ := (h3 re).2 ⟨n, hn, p, hp, e, hre⟩
    exact ⟨combined, h7, (h9 s).2 ⟨r, hr, hs⟩⟩

example : ∃ names : List Str, names ≠ [] ∧ (∀ n ∈ names, ∃ p ∈ NamedPattern.table, p.name = n) ∧ names.length = 2 := by
  refine ⟨["word".toList, "indent".toList], by simp, ?_, rfl⟩
  decide +kernel

/-- The pattern with this name matches the whole string. -/
def NamedMatches (name : String) (s : Str) : Prop :=
  ∃ p ∈ NamedPattern.table, p.name = name.toList ∧ ∃ re, Re.parse p.text = some re ∧ FullMatch re s

theorem namedMatches_iff {name : String} {p : NamedPattern} {re : Re} (hp : p ∈ NamedPattern.table)
    (hn : p.name = name.toList) (hre : Re.parse p.text = some re) (s : Str) : NamedMatches name s ↔ FullMatch re s := by
  constructor
  · rintro ⟨q, hq, e, re', h, hs⟩
    rw [nodup_map_inj C68_named.1 hq hp (e.trans hn.symm), hre] at h
    cases h
    exact hs
  · exact fun h => ⟨p, hp, hn, re, hre, h⟩

def IsLower (c : Char) : Prop := 'a' ≤ c ∧ c ≤ 'z'
def IsUpper (c : Char) : Prop := 'A' ≤ c ∧ c ≤ 'Z'
def IsDigit (c : Char) : Prop := '0' ≤ c ∧ c ≤ '9'

instance (c : Char) : Decidable (IsLower c) := inferInstanceAs (Decidable (_ ∧ _))
instance (c : Char) : Decidable (IsUpper c) := inferInstanceAs (Decidable (_ ∧ _))

theorem inARow_cls (negated : Bool) (ranges : List (Nat × Nat)) : ∀ (k : Nat) (before w after : Str),
    InARow (Matches (.cls negated ranges)) k before w after ↔ w.length = k ∧ ∀ c ∈ w, Re.inClass negated ranges c = true := by
  intro k
  induction k with
  | zero => intro before w after; rw [InARow, List.length_eq_zero_iff]; constructor <;> (intro h; simp_all)
  | succ k ih =>
    intro before w after
    rw [InARow]
    constructor
    · rintro ⟨u, v, rfl, ⟨c, rfl, hc⟩, h⟩
      obtain ⟨h1, h2⟩ := (ih _ _ _).1 h
      refine ⟨by simp [h1], ?_⟩
      intro d hd
      rcases List.mem_cons.1 hd with rfl | hd
      · rw [Re.inClass_iff]; exact hc
      · exact h2 d hd
    · rintro ⟨h1, h2⟩
      cases w with
      | nil => cases h1
      | cons c w =>
        exact ⟨[c], w, rfl, ⟨c, rfl, (Re.inClass_iff _ _ _).1 (h2 c (by simp))⟩,
          (ih _ _ _).2 ⟨by simpa using h1, fun d hd => h2 d (List.mem_cons_of_mem _ hd)⟩⟩

theorem matches_repCls (negated : Bool) (ranges : List (Nat × Nat)) (min : Nat) (max : Option Nat) (before w after : Str) :
    Matches (.rep (.cls negated ranges) min max) before w after ↔
      min ≤ w.length ∧ (∀ n, max = some n → w.length ≤ n) ∧ ∀ c ∈ w, Re.inClass negated ranges c = true := by
  rw [Matches]
  constructor
  · rintro ⟨k, h1, h2, h⟩
    obtain ⟨rfl, h'⟩ := (inARow_cls _ _ _ _ _ _).1 h
    exact ⟨h1, h2, h'⟩
  · rintro ⟨h1, h2, h⟩
    exact ⟨_, h1, h2, (inARow_cls _ _ _ _ _ _).2 ⟨rfl, h⟩⟩

theorem inClass_range (a b c : Char) : Re.inClass false [(a.toNat, b.toNat)] c = true ↔ a ≤ c ∧ c ≤ b := by
  rw [Re.inClass_iff]
  simp only [List.mem_singleton, exists_eq_left, iff_true]
  rfl

theorem inClass_two (a b a' b' c : Char) : Re.inClass false [(a.toNat, b.toNat), (a'.toNat, b'.toNat)] c = true ↔
    (a ≤ c ∧ c ≤ b) ∨ (a' ≤ c ∧ c ≤ b') := by
  rw [Re.inClass_iff]
  simp only [List.mem_cons, List.not_mem_nil, or_false, exists_eq_or_imp, exists_eq_left, iff_true]
  rfl

theorem pos_length {s : Str} : 1 ≤ s.length ↔ s ≠ [] := by
  rw [← List.length_pos_iff]; exact Iff.rfl

/-- What some of the names stand for, spelled out. -/
theorem C68_simple (s : Str) :
    (NamedMatches "lowercase-word" s ↔ s ≠ [] ∧ ∀ c ∈ s, IsLower c) ∧
    (NamedMatches "uppercase-word" s ↔ s ≠ [] ∧ ∀ c ∈ s, IsUpper c) ∧
    (NamedMatches "word" s ↔ s ≠ [] ∧ ∀ c ∈ s, IsUpper c ∨ IsLower c) ∧
    (NamedMatches "short-number" s ↔ 1 ≤ s.length ∧ s.length ≤ 3 ∧ ∀ c ∈ s, IsDigit c) ∧
    (NamedMatches "any-char" s ↔ ∃ c, s = [c] ∧ c ≠ '\n') ∧
    (NamedMatches "capitalized-word" s ↔ ∃ c w, s = c :: w ∧ IsUpper c ∧ w ≠ [] ∧ ∀ d ∈ w, IsLower d) ∧
    (NamedMatches "space-digit" s ↔ ∃ c, s = [' ', c] ∧ IsDigit c) ∧
    (NamedMatches "indent" s ↔ s ≠ [] ∧ ((∀ c ∈ s, c = ' ') ∨ ∀ c ∈ s, c = '\t')) := by
  have hone : ∀ {max}, (∀ n, (none : Option Nat) = some n → max ≤ n) := fun _ h => by cases h
  have hsingle : ∀ (a c : Char), Re.inClass false [(a.toNat, a.toNat)] c = true ↔ c = a := by
    intro a c
    rw [inClass_range]
    exact ⟨fun ⟨h1, h2⟩ => Char.le_antisymm h2 h1, fun h => h ▸ ⟨Char.le_refl _, Char.le_refl _⟩⟩
  refine ⟨?_, ?_, ?_, ?_, ?_, ?_, ?_, ?_⟩
  · rw [namedMatches_iff (p := NamedPattern.table[1]) (List.getElem_mem _) rfl (by decide +kernel : Re.parse _ =
      some (.rep (.cls false [('a'.toNat, 'z'.toNat)]) 1 none)), FullMatch, matches_repCls, pos_length]
    simp only [inClass_range]
    simp [IsLower]
  · rw [namedMatches_iff (p := NamedPattern.table[3]) (List.getElem_mem _) rfl (by decide +kernel : Re.parse _ =
      some (.rep (.cls false [('A'.toNat, 'Z'.toNat)]) 1 none)), FullMatch, matches_repCls, pos_length]
    simp only [inClass_range]
    simp [IsUpper]
  · rw [namedMatches_iff (p := NamedPattern.table[7]) (List.getElem_mem _) rfl (by decide +kernel : Re.parse _ =
      some (.rep (.cls false [('A'.toNat, 'Z'.toNat), ('a'.toNat, 'z'.toNat)]) 1 none)), FullMatch, matches_repCls, pos_length]
    simp only [inClass_two]
    simp [IsUpper, IsLower]
  · rw [namedMatches_iff (p := NamedPattern.table[14]) (List.getElem_mem _) rfl (by decide +kernel : Re.parse _ =
      some (.rep (.cls false [('0'.toNat, '9'.toNat)]) 1 (some 3))), FullMatch, matches_repCls]
    simp only [inClass_range]
    simp [IsDigit]
  · rw [namedMatches_iff (p := NamedPattern.table[0]) (List.getElem_mem _) rfl (by decide +kernel : Re.parse _ =
      some (.cls true [('\n'.toNat, '\n'.toNat)])), FullMatch, Matches]
    refine exists_congr fun c => and_congr_right fun _ => ?_
    rw [← Re.inClass_iff]
    have := hsingle '\n' c
    rw [Re.inClass] at this ⊢
    by_cases h : c = '\n'
    · simp only [h, ne_eq, not_true_eq_false, iff_false]
      decide
    · simp only [h, iff_false, Bool.not_eq_true] at this
      simp only [h, ne_eq, not_false_eq_true, iff_true]
      revert this
      generalize (List.any _ _) = b
      cases b <;> simp
  · rw [namedMatches_iff (p := NamedPattern.table[5]) (List.getElem_mem _) rfl (by decide +kernel : Re.parse _ =
      some (.cat (.cls false [('A'.toNat, 'Z'.toNat)]) (.rep (.cls false [('a'.toNat, 'z'.toNat)]) 1 none))),
      FullMatch, Matches]
    constructor
    · rintro ⟨u, v, rfl, ⟨c, rfl, hc⟩, h⟩
      obtain ⟨h1, -, h3⟩ := (matches_repCls _ _ _ _ _ _ _).1 h
      refine ⟨c, v, rfl, (inClass_range _ _ _).1 ((Re.inClass_iff _ _ _).2 hc), pos_length.1 h1, ?_⟩
      exact fun d hd => (inClass_range _ _ _).1 (h3 d hd)
    · rintro ⟨c, w, rfl, hc, hw, h⟩
      exact ⟨[c], w, rfl, ⟨c, rfl, (Re.inClass_iff _ _ _).1 ((inClass_range _ _ _).2 hc)⟩,
        (matches_repCls _ _ _ _ _ _ _).2 ⟨pos_length.2 hw, hone, fun d hd => (inClass_range _ _ _).2 (h d hd)⟩⟩
  · rw [namedMatches_iff (p := NamedPattern.table[13]) (List.getElem_mem _) rfl (by decide +kernel : Re.parse _ =
      some (.cat (.cls false [(' '.toNat, ' '.toNat)]) (.cls false [('0'.toNat, '9'.toNat)]))), FullMatch, Matches]
    constructor
    · rintro ⟨u, v, rfl, ⟨c, rfl, hc⟩, ⟨d, rfl, hd⟩⟩
      rw [(hsingle _ _).1 ((Re.inClass_iff _ _ _).2 hc)]
      exact ⟨d, rfl, (inClass_range _ _ _).1 ((Re.inClass_iff _ _ _).2 hd)⟩
    · rintro ⟨c, rfl, hc⟩
      exact ⟨[' '], [c], rfl, ⟨' ', rfl, (Re.inClass_iff _ _ _).1 ((hsingle _ _).2 rfl)⟩,
        ⟨c, rfl, (Re.inClass_iff _ _ _).1 ((inClass_range _ _ _).2 hc)⟩⟩
  · rw [namedMatches_iff (p := NamedPattern.table[26]) (List.getElem_mem _) rfl (by decide +kernel : Re.parse _ =
      some (.alt (.rep (.cls false [(' '.toNat, ' '.toNat)]) 1 none) (.rep (.cls false [('\t'.toNat, '\t'.toNat)]) 1 none))),
      FullMatch, Matches, matches_repCls, matches_repCls, pos_length]
    simp only [hsingle]
    constructor
    · rintro (⟨h, -, h'⟩ | ⟨h, -, h'⟩)
      · exact ⟨h, Or.inl h'⟩
      · exact ⟨h, Or.inr h'⟩
    · rintro ⟨h, h' | h'⟩
      · exact Or.inl ⟨h, hone, h'⟩
      · exact Or.inr ⟨h, hone, h'⟩

example : NamedMatches "word" "Hello".toList ∧ ¬ NamedMatches "short-number" "1000".toList := by
  refine ⟨(C68_simple _).2.2.1.2 (by decide), fun h => ?_⟩
  have := ((C68_simple _).2.2.2.1.1 h).2.1
  revert this
  decide

/-- **C68** What every name stands for: the strings it matches as a whole are those described in `Spec.patternMeaning`. -/
theorem C68_meaning : patternMeaning.map (·.1.toList) = NamedPattern.table.map (·.name) ∧
    ∀ m ∈ patternMeaning, ∀ s, NamedMatches m.1 s ↔ ∃ runs ∈ m.2, Fits runs s := by
  have hn : patternMeaning.map (·.1.toList) = NamedPattern.table.map (·.name) := by decide +kernel
  refine ⟨hn, ?_⟩
  have h : patternMeaning.all (fun m => NamedPattern.table.any fun p => decide (p.name = m.1.toList) &&
      decide ((Re.parse p.text).bind Re.shapes = some (m.2.map (·.map Re.CodeRun.of)))) = true := by decide +kernel
  intro m hm s
  obtain ⟨p, hp, h⟩ := List.any_eq_true.1 (List.all_eq_true.1 h m hm)
  rw [Bool.and_eq_true] at h
  obtain ⟨re, hre, hsh⟩ := Option.bind_eq_some_iff.1 (of_decide_eq_true h.2)
  rw [namedMatches_iff hp (of_decide_eq_true h.1) hre, FullMatch, Re.shapes_matches hsh]
  constructor
  · rintro ⟨a, ha, hs⟩
    obtain ⟨runs, hr, rfl⟩ := List.mem_map.1 ha
    exact ⟨runs, hr, (Re.CodeRun.fits_of _ _).1 hs⟩
  · rintro ⟨runs, hr, hs⟩
    exact ⟨_, List.mem_map_of_mem hr, (Re.CodeRun.fits_of _ _).2 hs⟩

/-- **C68** A text with its special characters escaped is a valid pattern, and matches that text and nothing else. -/
theorem C68_escape (s : Str) : ∃ r, Regex.new (Re.escape s) = some r ∧ ∀ w, FullMatch r.re w ↔ w = s := by
  obtain ⟨re, h1, h2⟩ := Re.parse_escape s
  exact ⟨⟨_, re⟩, by rw [Regex.new, h1]; rfl, h2⟩

example : Re.escape "a+b".toList = "a\\+b".toList := by decide

/-- The table of examples of src/regex.rs: every pattern admits its examples and none of its counterexamples, with one
exception: `space-punct-space` does not admit `" != "`, so that the test `test_regexes` fails. -/
theorem C68_examples : ∀ p ∈ NamedPattern.table, ∃ r c, p.regex = .ok r ∧ buildAllowRegex [r] = .ok c ∧
    (∀ s ∈ p.examples, c.isMatch s = true ↔ ¬ (p.name = "space-punct-space".toList ∧ s = " != ".toList)) ∧
    ∀ s ∈ p.counterexamples, c.isMatch s = false := by
  have h : NamedPattern.table.all (fun p => match p.regex with
      | .error _ => false
      | .ok r => match buildAllowRegex [r] with
        | .error _ => false
        | .ok c => decide ((∀ s ∈ p.examples, c.isMatch s = true ↔
            ¬ (p.name = "space-punct-space".toList ∧ s = " != ".toList)) ∧ ∀ s ∈ p.counterexamples, c.isMatch s = false)) = true := by
    decide +kernel
  intro p hp
  have := List.all_eq_true.1 h p hp
  cases hr : p.regex with
  | error e => rw [hr] at this; cases this
  | ok r =>
    rw [hr] at this
    dsimp only at this
    cases hc : buildAllowRegex [r] with
    | error e => rw [hc] at this; cases this
    | ok c => rw [hc] at this; exact ⟨r, c, rfl, hc, of_decide_eq_true this⟩

end Tokengeex

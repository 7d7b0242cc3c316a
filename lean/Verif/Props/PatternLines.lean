import Verif.Props.Sources
import Verif.Model.Cli
import Verif.Proofs.RegexText
/-
C54 (reading pattern files that are broken into lines) and C55 (which sources load).
-/
namespace Tokengeex
open Spec Source

/-- **C55** Which sources load: a name and a path, perhaps followed by a number, where the file at the path exists and is UTF-8.
Anything else is a panic. -/
theorem C55_loads (norm : UnicodeForm → Str → Str) (files : Str → Option (List UInt8)) (parse : Str → Option F64)
    (processors : List Processor) (source : Str) :
    ((∃ s, Source.load norm files parse processors source = .ok s) ↔
      ∃ name path text, files path = some (enc text) ∧
        (Parts ':' source [name, path] ∨ ∃ p x, Parts ':' source [name, path, p] ∧ parse p = some x)) ∧
    ∀ e, Source.load norm files parse processors source = .error e → e = .panic := by
  have hparts := splitOn_parts ':' source
  have huniq : ∀ parts, Parts ':' source parts → parts = splitOn (· == ':') source := fun _ h => (splitOn_of_parts h).symm
  unfold Source.load
  match hsp : splitOn (· == ':') source with
  | [] =>
    dsimp only
    refine ⟨⟨(by rintro ⟨_, h⟩; cases h), ?_⟩, by rintro _ ⟨⟩; rfl⟩
    rintro ⟨name, path, text, _, h | ⟨p, x, h, _⟩⟩ <;> have := huniq _ h <;> rw [hsp] at this <;> cases this
  | [_] =>
    dsimp only
    refine ⟨⟨(by rintro ⟨_, h⟩; cases h), ?_⟩, by rintro _ ⟨⟩; rfl⟩
    rintro ⟨name, path, text, _, h | ⟨p, x, h, _⟩⟩ <;> have := huniq _ h <;> rw [hsp] at this <;> cases this
  | a :: b :: c :: d :: l =>
    dsimp only
    rw [if_pos (by simp)]
    refine ⟨⟨(by rintro ⟨_, h⟩; cases h), ?_⟩, by rintro _ ⟨⟩; rfl⟩
    rintro ⟨name, path, text, _, h | ⟨p, x, h, _⟩⟩ <;> have := huniq _ h <;> rw [hsp] at this <;> cases this
  | [name, path] =>
    rw [hsp] at hparts
    dsimp only
    rw [if_neg (by simp)]
    cases hf : files path with
    | none =>
      dsimp only
      refine ⟨⟨(by rintro ⟨_, h⟩; cases h), ?_⟩, by rintro _ ⟨⟩; rfl⟩
      rintro ⟨n, q, text, ht, h | ⟨p, x, h, _⟩⟩ <;> have := huniq _ h <;> rw [hsp] at this <;> cases this
      rw [hf] at ht; cases ht
    | some contents =>
      dsimp only
      by_cases hv : ∃ text, contents = enc text
      · obtain ⟨text, rfl⟩ := hv
        rw [samplesOf_text (splitOn_parts '\x00' text)]
        exact ⟨⟨fun _ => ⟨name, path, text, hf, .inl hparts⟩, fun _ => ⟨_, rfl⟩⟩, by rintro _ ⟨⟩⟩
      · rw [samplesOf_invalid (fun text h => hv ⟨text, h⟩)]
        refine ⟨⟨(by rintro ⟨_, h⟩; cases h), ?_⟩, by rintro _ ⟨⟩; rfl⟩
        rintro ⟨n, q, text, ht, h | ⟨p, x, h, _⟩⟩ <;> have := huniq _ h <;> rw [hsp] at this <;> cases this
        rw [hf] at ht; cases ht; exact absurd ⟨text, rfl⟩ hv
  | [name, path, p] =>
    rw [hsp] at hparts
    dsimp only
    rw [if_neg (by simp)]
    cases hp : parse p with
    | none =>
      dsimp only
      refine ⟨⟨(by rintro ⟨_, h⟩; cases h), ?_⟩, by rintro _ ⟨⟩; rfl⟩
      rintro ⟨n, q, text, ht, h | ⟨p, x, h, hx⟩⟩ <;> have := huniq _ h <;> rw [hsp] at this <;> cases this
      rw [hp] at hx; cases hx
    | some x =>
    cases hf : files path with
    | none =>
      dsimp only
      refine ⟨⟨(by rintro ⟨_, h⟩; cases h), ?_⟩, by rintro _ ⟨⟩; rfl⟩
      rintro ⟨n, q, text, ht, h | ⟨p, x, h, _⟩⟩ <;> have := huniq _ h <;> rw [hsp] at this <;> cases this
      rw [hf] at ht; cases ht
    | some contents =>
      dsimp only
      by_cases hv : ∃ text, contents = enc text
      · obtain ⟨text, rfl⟩ := hv
        rw [samplesOf_text (splitOn_parts '\x00' text)]
        exact ⟨⟨fun _ => ⟨name, path, text, hf, .inr ⟨p, x, hparts, hp⟩⟩, fun _ => ⟨_, rfl⟩⟩, by rintro _ ⟨⟩⟩
      · rw [samplesOf_invalid (fun text h => hv ⟨text, h⟩)]
        refine ⟨⟨(by rintro ⟨_, h⟩; cases h), ?_⟩, by rintro _ ⟨⟩; rfl⟩
        rintro ⟨n, q, text, ht, h | ⟨p, x, h, _⟩⟩ <;> have := huniq _ h <;> rw [hsp] at this <;> cases this
        rw [hf] at ht; cases ht; exact absurd ⟨text, rfl⟩ hv

example : ∃ s, Source.load (fun _ s => s) (fun p => if p = ['f'] then some (enc ['a']) else none) (fun _ => none) [] ['n', ':', 'f'] = .ok s :=
  (C55_loads _ _ _ [] _).1.2 ⟨['n'], ['f'], ['a'], rfl, .inl (by
    have := splitOn_parts ':' ['n', ':', 'f']
    rwa [show splitOn (· == ':') ['n', ':', 'f'] = [['n'], ['f']] by decide] at this)⟩

/-! ## Pattern files -/

theorem trim_spaces {a b : Str} (ha : ∀ c ∈ a, isSpace c = true) (hb : ∀ c ∈ b, isSpace c = true) (s : Str) :
    trim (a ++ s ++ b) = trim s := by
  have h1 : ∀ (w x : Str), (∀ c ∈ w, isSpace c = true) → (w ++ x).dropWhile isSpace = x.dropWhile isSpace := by
    intro w x hw
    induction w with
    | nil => rfl
    | cons c w ih =>
      rw [List.cons_append, List.dropWhile_cons_of_pos (hw c List.mem_cons_self)]
      exact ih fun d hd => hw d (List.mem_cons_of_mem _ hd)
  unfold trim
  rw [List.append_assoc, h1 a _ ha]
  by_cases hs : ∀ c ∈ s, isSpace c = true
  · rw [h1 s b hs, ← List.append_nil s, h1 s [] hs, ← List.append_nil b, h1 b [] hb]
  · have h2 : (s ++ b).dropWhile isSpace = s.dropWhile isSpace ++ b := by
      clear h1
      induction s with
      | nil => simp at hs
      | cons c s ih =>
        rw [List.cons_append]
        by_cases hc : isSpace c = true
        · rw [List.dropWhile_cons_of_pos hc, List.dropWhile_cons_of_pos hc]
          apply ih
          intro h
          apply hs
          intro d hd
          rcases List.mem_cons.1 hd with rfl | hd
          · exact hc
          · exact h d hd
        · rw [List.dropWhile_cons_of_neg hc, List.dropWhile_cons_of_neg hc, List.cons_append]
    rw [h2, List.reverse_append, h1 b.reverse _ (fun c hc => hb c (List.mem_reverse.1 hc))]

/-- The text of a file in which a pattern is broken into lines: each piece is followed by line breaks, and there is white space
before and after. -/
def brokenLines (before after : Str) (lines : List (Str × Str)) : Str := before ++ lines.flatMap (fun l => l.1 ++ l.2) ++ after

theorem breaks_removed (before after : Str) (lines : List (Str × Str)) (hb : ∀ c ∈ before, isSpace c = true)
    (ha : ∀ c ∈ after, isSpace c = true) (h : ∀ l ∈ lines, ('\n' ∉ l.1 ∧ '\r' ∉ l.1) ∧ ∀ c ∈ l.2, c = '\n' ∨ c = '\r') :
    trim ((brokenLines before after lines).filter fun c => !(c == '\n' || c == '\r')) = trim (lines.flatMap (·.1)) ∧
    (lines.flatMap (·.1)).filter (fun c => !(c == '\n' || c == '\r')) = lines.flatMap (·.1) := by
  have hkeep : ∀ s : Str, '\n' ∉ s → '\r' ∉ s → s.filter (fun c => !(c == '\n' || c == '\r')) = s := by
    intro s h1 h2
    rw [List.filter_eq_self]
    intro c hc
    have e1 : c ≠ '\n' := fun e => h1 (e ▸ hc)
    have e2 : c ≠ '\r' := fun e => h2 (e ▸ hc)
    simp [e1, e2]
  constructor
  · unfold brokenLines
    rw [List.filter_append, List.filter_append, trim_spaces (fun c hc => hb c (List.mem_filter.1 hc).1)
      (fun c hc => ha c (List.mem_filter.1 hc).1)]
    congr 1
    clear hb ha
    induction lines with
    | nil => rfl
    | cons l lines ih =>
      rw [List.flatMap_cons, List.flatMap_cons, List.filter_append, List.filter_append, ih fun x hx => h x (List.mem_cons_of_mem _ hx)]
      obtain ⟨⟨h1, h2⟩, h3⟩ := h l List.mem_cons_self
      rw [hkeep _ h1 h2]
      have : l.2.filter (fun c => !(c == '\n' || c == '\r')) = [] := by
        rw [List.filter_eq_nil_iff]
        intro c hc
        rcases h3 c hc with rfl | rfl <;> decide
      rw [this, List.append_nil]
  · apply hkeep
    · intro hc
      obtain ⟨l, hl, hc⟩ := List.mem_flatMap.1 hc
      exact (h l hl).1.1 hc
    · intro hc
      obtain ⟨l, hl, hc⟩ := List.mem_flatMap.1 hc
      exact (h l hl).1.2 hc

/-- **C54** A pattern file may be broken into lines anywhere, with any line breaks, and may have white space around: it loads as
the pattern on one line does (and does not if that does not). -/
theorem C54_lines (before after : Str) (lines : List (Str × Str)) (hb : ∀ c ∈ before, isSpace c = true)
    (ha : ∀ c ∈ after, isSpace c = true) (h : ∀ l ∈ lines, ('\n' ∉ l.1 ∧ '\r' ∉ l.1) ∧ ∀ c ∈ l.2, c = '\n' ∨ c = '\r') :
    loadRegex (enc (brokenLines before after lines)) = loadRegex (enc (lines.flatMap (·.1))) := by
  unfold loadRegex
  rw [fromUtf8_enc, fromUtf8_enc]
  obtain ⟨h1, h2⟩ := breaks_removed before after lines hb ha h
  show unwrap (Regex.new _) = unwrap (Regex.new _)
  rw [h1, h2]

/-- **C54** The same holds of the file given with `--split`, for the `fancy-regex` crate. -/
theorem C54_split_lines {F : Type} (env : Cli.Env F) (fs fs' : Cli.Files) (path path' before after : Str) (lines : List (Str × Str))
    (hb : ∀ c ∈ before, isSpace c = true) (ha : ∀ c ∈ after, isSpace c = true)
    (h : ∀ l ∈ lines, ('\n' ∉ l.1 ∧ '\r' ∉ l.1) ∧ ∀ c ∈ l.2, c = '\n' ∨ c = '\r')
    (hfile : fs path = some (enc (brokenLines before after lines))) (hfile' : fs' path' = some (enc (lines.flatMap (·.1)))) :
    Cli.fancyFile env fs path = Cli.fancyFile env fs' path' := by
  unfold Cli.fancyFile Cli.readToString
  rw [hfile, hfile']
  show (unwrap (fromUtf8 _) >>= _) = (unwrap (fromUtf8 _) >>= _)
  rw [fromUtf8_enc, fromUtf8_enc]
  obtain ⟨h1, h2⟩ := breaks_removed before after lines hb ha h
  show unwrap (env.fancy _) = unwrap (env.fancy _)
  rw [h1, h2]

example : loadRegex (enc "  [a-z]\r\n+|\n[0-9]\n".toList) = loadRegex (enc "[a-z]+|[0-9]".toList) :=
  C54_lines "  ".toList [] [("[a-z]".toList, "\r\n".toList), ("+|".toList, "\n".toList), ("[0-9]".toList, "\n".toList)]
    (by decide) (by decide) (by decide)

end Tokengeex

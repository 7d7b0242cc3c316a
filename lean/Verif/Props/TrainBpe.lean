import Verif.Model.TrainBpe
import Verif.Props.Sources
/-
C124: what the script that trains baseline tokenizers reads (scripts/trainbpe.py).
-/
namespace Tokengeex
open Spec Source Scripts F64

/-- `int` of the product, for a proportion of size at most one, is the quota of the Rust loader up to the sign. -/
theorem pyInt_quota {n k : Nat} (neg : Bool) (hn : n < 2 ^ 53) (hk : k ≤ 2 ^ 1074) :
    pyInt ((F64.ofNat n).mul (.num neg k)) =
      .ok (if neg then -((quota n (.num false k) : Nat) : Int) else ((quota n (.num false k) : Nat) : Int)) := by
  rw [quota_num hn, ofNat_small hn, F64.mul_num]
  have hle := (roundMag_scaled 1074 n k hn).2 (Nat.mul_le_mul_left n hk)
  rw [F64.round, F64.round]
  generalize F64.roundMag (n * 2 ^ 1074 * k) (2 ^ 1074) = r at hle ⊢
  have hl : r < F64.limit := F64.lt_limit (k := 53 + 1074) (lt_scaled 1074 hle hn) (by omega)
  rw [if_pos hl, if_pos hl, toUsize_num, pyInt]
  have h1 : r / 2 ^ 1074 ≤ n := div_scaled 1074 hle
  generalize r / 2 ^ 1074 = q at h1 ⊢
  have : min q (2 ^ 64 - 1) = q := by omega
  rw [this]
  cases neg <;> rfl

theorem pySlice_signed {α : Type} (xs : List α) (neg : Bool) (q : Nat) :
    pySlice xs (if neg then -(q : Int) else (q : Int)) =
      if neg ∧ q ≠ 0 then xs.take (xs.length - q) else xs.take q := by
  unfold pySlice
  cases neg
  · have : ¬ ((q : Int) < 0) := by omega
    simp [this]
  · rcases Nat.eq_zero_or_pos q with h | h
    · subst h
      rfl
    · have h3 : q ≠ 0 := by omega
      simp [h3]

theorem bpeFile_ok {text : Str} {parts : List Str} {p : F64} {k : Int} (hparts : Parts '\x00' text parts)
    (hk : pyInt ((F64.ofNat parts.length).mul p) = .ok k) : bpeFile p (enc text) = .ok (pySlice parts k) := by
  have hs : pySamples text = parts := splitOn_of_parts hparts
  have h1 : bpeFile p (enc text) = bpeTake p (pySamples text) := by
    unfold bpeFile
    rw [fromUtf8_enc]
  rw [h1, hs, bpeTake, hk]
  rfl

theorem bpeFile_text {text : Str} {parts : List Str} (neg : Bool) {k : Nat} (hparts : Parts '\x00' text parts)
    (hlen : parts.length < 2 ^ 53) (hk : k ≤ 2 ^ 1074) :
    bpeFile (.num neg k) (enc text) = .ok (if neg ∧ quota parts.length (.num false k) ≠ 0 then
      parts.take (parts.length - quota parts.length (.num false k)) else
      parts.take (quota parts.length (.num false k))) := by
  rw [bpeFile_ok hparts (pyInt_quota neg hlen hk), pySlice_signed]

/-- **C124** Whatever the options and whatever the libraries would do, the script never trains anything: it exits with the
usage, or it fails because it asks for an option it has not declared. -/
theorem C124_never {α : Type} (train : Str → Str → Str → Str → Str → Except PyErr α) (valid : Char → Str → Bool)
    (given : List (Char × Str)) :
    trainBpe train valid given = .error .usage ∨ trainBpe train valid given = .error .attributeError := by
  unfold trainBpe bpeParse
  split
  · right
    rfl
  · left
    rfl

/-- **C124** With options as the script documents them it is the second. -/
theorem C124_documented {α : Type} (train : Str → Str → Str → Str → Str → Except PyErr α) (valid : Char → Str → Bool)
    (given : List (Char × Str)) (hvalid : ∀ c v, (c, v) ∈ given → valid c v = true ∧ c ∈ ['l', 'i', 'o', 'v', 'p'])
    (hall : ∀ c ∈ ['l', 'i', 'o', 'v'], ∃ v, (c, v) ∈ given) :
    trainBpe train valid given = .error .attributeError := by
  unfold trainBpe bpeParse
  rw [if_pos]
  · rfl
  · rw [Bool.and_eq_true, List.all_eq_true, List.all_eq_true]
    refine ⟨fun ⟨c, v⟩ h => ?_, fun o h => ?_⟩
    · obtain ⟨h1, h2⟩ := hvalid c v h
      rw [Bool.and_eq_true]
      refine ⟨?_, h1⟩
      simp only [List.mem_cons, List.not_mem_nil, or_false] at h2
      rcases h2 with rfl | rfl | rfl | rfl | rfl <;> rfl
    · have key : ∀ c ∈ ['l', 'i', 'o', 'v'], given.any (·.1 == c) = true := by
        intro c hc
        obtain ⟨v, hv⟩ := hall c hc
        exact List.any_eq_true.2 ⟨_, hv, by simp⟩
      simp only [bpeOptions, List.mem_cons, List.not_mem_nil, or_false] at h
      rcases h with rfl | rfl | rfl | rfl | rfl
      · simpa using key 'l' (by decide)
      · simpa using key 'i' (by decide)
      · simpa using key 'o' (by decide)
      · simpa using key 'v' (by decide)
      · rfl

/-- **C124** `load_samples` of valid files with proportion one gives every part of every file, empty ones too, in order. -/
theorem C124_samples : ∀ (files : List (Str × List Str)),
    (∀ f ∈ files, Parts '\x00' f.1 f.2 ∧ f.2.length < 2 ^ 53) →
    bpeSamples (F64.ofNat 1) (files.map fun f => enc f.1) = .ok (files.flatMap (·.2))
  | [], _ => rfl
  | f :: files, h => by
    obtain ⟨hp, hl⟩ := h f List.mem_cons_self
    have h1 : F64.ofNat 1 = num false (1 * 2 ^ 1074) := ofNat_small (by decide)
    have ih := C124_samples files fun g hg => h g (List.mem_cons_of_mem _ hg)
    have hq := quota_one hl
    have hf := bpeFile_text false (k := 1 * 2 ^ 1074) hp hl (by rw [Nat.one_mul])
    rw [h1] at hq
    rw [hq, if_neg (by simp), List.take_length, ← h1] at hf
    rw [List.map_cons, bpeSamples, hf]
    dsimp only
    rw [ih]
    rfl

variable (norm : UnicodeForm → Str → Str) (files : Str → Option (List UInt8)) (parse : Str → Option F64)

/-- **C124** The training commands and the script see the same samples of a file, except that the script keeps empty ones. -/
theorem C124_same (name path text : Str) (parts : List Str) (hn : ':' ∉ name) (hp : ':' ∉ path)
    (hfile : files path = some (enc text)) (hparts : Parts '\x00' text parts) (hlen : parts.length < 2 ^ 53) :
    ∃ s samples, load norm files parse [] (name ++ ':' :: path) = .ok s ∧
      bpeSamples (F64.ofNat 1) [enc text] = .ok samples ∧ s.processedSamples = nonEmpty samples := by
  obtain ⟨s, h1, -, h2⟩ := C55_samples norm files parse name path text parts hn hp hfile hparts hlen
  have h3 := C124_samples [(text, parts)] (by
    intro f hf
    rw [List.mem_singleton] at hf
    subst hf
    exact ⟨hparts, hlen⟩)
  rw [List.flatMap_singleton] at h3
  exact ⟨s, parts, h1, h3, h2⟩

/-- **C124** A proportion between zero and one takes the first samples of the file; their number is the proportion of all
samples, empty ones counted, rounded down or up.  A proportion between minus one and zero leaves out that many from the
end, unless that is none: then nothing is taken.  (The training commands take nothing for any negative proportion.) -/
theorem C124_proportion (text : Str) (parts : List Str) (neg : Bool) (k : Nat) (hk : k ≤ 2 ^ 1074)
    (hparts : Parts '\x00' text parts) (hlen : parts.length < 2 ^ 53) :
    -- `k / 2¹⁰⁷⁴` is the proportion without its sign
    ∃ count, parts.length * k < (count + 1) * 2 ^ 1074 ∧ count * 2 ^ 1074 < parts.length * k + 2 ^ 1074 ∧
      (neg = false → bpeSamples (.num neg k) [enc text] = .ok (parts.take count)) ∧
      (neg = true → count ≠ 0 → bpeSamples (.num neg k) [enc text] = .ok (parts.take (parts.length - count))) ∧
      (neg = true → count = 0 → bpeSamples (.num neg k) [enc text] = .ok []) := by
  refine ⟨quota parts.length (.num false k), ?_, ?_, ?_, ?_, ?_⟩
  · have hle : quota parts.length (.num false k) ≤ parts.length := quota_le hlen hlen (Nat.mul_le_mul_left _ hk)
    rcases Nat.lt_or_ge (quota parts.length (.num false k)) parts.length with h | h
    · by_contra hc
      have := le_quota hlen (a := quota parts.length (.num false k) + 1) (by omega) (Nat.not_lt.1 hc)
      omega
    · have : quota parts.length (.num false k) = parts.length := by omega
      rw [this, Nat.add_mul]
      have h0 := Nat.mul_le_mul_left parts.length hk
      have hpos : 0 < 2 ^ 1074 := Nat.pow_pos (by decide)
      generalize 2 ^ 1074 = e at *
      omega
  · rcases Nat.eq_zero_or_pos (quota parts.length (.num false k)) with h | h
    · rw [h, Nat.zero_mul]
      exact Nat.add_pos_right _ (Nat.pow_pos (by decide))
    · by_contra hc
      have hle : quota parts.length (.num false k) ≤ parts.length := quota_le hlen hlen (Nat.mul_le_mul_left _ hk)
      have h2 : parts.length * k ≤ (quota parts.length (.num false k) - 1) * 2 ^ 1074 := by
        rw [Nat.sub_mul]
        generalize 2 ^ 1074 = e at *
        omega
      have := quota_le hlen (by omega) h2
      omega
  all_goals
    intro hneg
    subst hneg
    rw [bpeSamples, bpeFile_text _ hparts hlen hk]
  · simp [bpeSamples]
  · intro h
    rw [if_pos ⟨rfl, h⟩]
    simp [bpeSamples]
  · intro h
    rw [if_neg (by simp [h]), h]
    simp [bpeSamples]

/-- **C124** A file that is not UTF-8 makes reading fail, whatever the proportion and the files after it: nothing of the file
is used. -/
theorem C124_invalid (proportion : F64) (contents : List UInt8) (rest : List (List UInt8))
    (hbad : ∀ text, contents ≠ enc text) : bpeSamples proportion (contents :: rest) = .error .unicodeDecodeError := by
  have : fromUtf8 contents = none := by
    cases h : fromUtf8 contents with
    | none => rfl
    | some t => exact absurd (fromUtf8_iff.1 h) (hbad t)
  rw [bpeSamples, bpeFile, this]

/-- The options of the header of the script. -/
example : trainBpe (α := Unit) (fun _ _ _ _ _ => .ok ()) (fun _ _ => true)
    [('l', "huggingface".toList), ('i', "data".toList), ('o', "out.json".toList), ('v', "32000".toList), ('p', "0.5".toList)] =
      .error .attributeError := by decide +kernel

/-- Two samples with an empty one between them. -/
example : Parts '\x00' "a\x00\x00b".toList ["a".toList, [], "b".toList] := by
  refine ⟨by decide, by decide, by decide⟩

/-- Half of four samples, and minus a half: the same two. -/
example : bpeSamples (.num true (2 ^ 1073)) [enc "a\x00b\x00c\x00d".toList] = .ok ["a".toList, "b".toList] := by decide +kernel

example : ∀ text, [0xff] ≠ enc text := by
  intro text h
  have := fromUtf8_iff.2 h
  revert this
  have h0 : fromUtf8 [0xff] = none := by decide +kernel
  rw [h0]
  simp

end Tokengeex

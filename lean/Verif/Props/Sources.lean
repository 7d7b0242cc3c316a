import Verif.Proofs.Sources
/-
C55: reading training data (`load_sources`).
-/
namespace Tokengeex
open Spec Source

variable (norm : UnicodeForm → Str → Str) (files : Str → Option (List UInt8)) (parse : Str → Option F64)

theorem load_two {name path : Str} (hn : ':' ∉ name) (hp : ':' ∉ path) :
    splitOn (· == ':') (name ++ ':' :: path) = [name, path] := by
  rw [splitOn_append _ _ _ hn, splitOn_no_sep _ _ hp]

theorem load_three {name path p : Str} (hn : ':' ∉ name) (hp : ':' ∉ path) (hq : ':' ∉ p) :
    splitOn (· == ':') (name ++ ':' :: path ++ ':' :: p) = [name, path, p] := by
  rw [List.append_assoc, List.cons_append, splitOn_append _ _ _ hn, splitOn_append _ _ _ hp, splitOn_no_sep _ _ hq]

/-- **C55** Reading `name:path` without processors gives exactly the non-empty parts of the text of the file between NUL
characters, in order, whatever they are.  (Fewer than 2⁵³ of them: their number goes through a double.) -/
theorem C55_samples (name path text : Str) (parts : List Str) (hn : ':' ∉ name) (hp : ':' ∉ path)
    (hfile : files path = some (enc text)) (hparts : Parts '\x00' text parts) (hlen : parts.length < 2 ^ 53) :
    ∃ s, load norm files parse [] (name ++ ':' :: path) = .ok s ∧ s.name = name ∧ s.processedSamples = nonEmpty parts := by
  have hlen' : (nonEmpty parts).length < 2 ^ 53 := Nat.lt_of_le_of_lt (List.length_filter_le ..) hlen
  refine ⟨_, by rw [load, load_two hn hp]; dsimp only; rw [if_neg (by decide), hfile]; dsimp only; rw [samplesOf_text hparts], rfl, ?_⟩
  dsimp only
  rw [quota_one hlen', List.take_length]
  have : process norm [] = id := rfl
  rw [this, List.map_id, nonEmpty, List.filter_filter]
  congr 1
  funext s
  cases s <;> simp

/-- The parts of a text exist and are determined by it. -/
theorem C55_parts (text : Str) : ∃ parts, Parts '\x00' text parts ∧ ∀ parts', Parts '\x00' text parts' → parts' = parts :=
  ⟨_, splitOn_parts _ _, fun _ h => (splitOn_of_parts h).symm⟩

/-- **C55** A file that is not UTF-8 as a whole makes the command panic: whatever the processors and the proportion, it
never loads, not even in part. -/
theorem C55_invalid (processors : List Processor) (source name path : Str) (rest : List Str) (contents : List UInt8)
    (hsource : Parts ':' source (name :: path :: rest)) (hfile : files path = some contents)
    (hinvalid : ∀ text, contents ≠ enc text) : load norm files parse processors source = .error .panic := by
  rw [load, splitOn_of_parts hsource]
  dsimp only
  by_cases hr : rest.length > 1
  · rw [if_pos hr]
  · rw [if_neg hr, hfile]
    cases rest with
    | nil => dsimp only; rw [samplesOf_invalid hinvalid]
    | cons p l =>
      dsimp only
      cases parse p with
      | none => rfl
      | some x => dsimp only; rw [samplesOf_invalid hinvalid]

/-- **C55** Joining the samples with NUL characters gives a file that is read as the same samples: nothing but empty
samples is lost. -/
theorem C55_rejoin (name path path' text : Str) (hn : ':' ∉ name) (hp : ':' ∉ path) (hp' : ':' ∉ path')
    (hfile : files path = some (enc text)) (hlen : text.length + 1 < 2 ^ 53) (s : Source)
    (hs : load norm files parse [] (name ++ ':' :: path) = .ok s)
    (hfile' : files path' = some (enc (List.intercalate ['\x00'] s.processedSamples))) :
    ∃ s', load norm files parse [] (name ++ ':' :: path') = .ok s' ∧ s'.processedSamples = s.processedSamples := by
  have hparts := splitOn_parts '\x00' text
  have hle : (splitOn (· == '\x00') text).length ≤ text.length + 1 := by
    clear hfile hlen hs hfile' hparts
    induction text with
    | nil => simp [splitOn]
    | cons c text ih =>
      rw [splitOn]
      by_cases h : (c == '\x00') = true
      · rw [if_pos h]; simp; exact ih
      · rw [if_neg h]
        cases hsp : splitOn (· == '\x00') text with
        | nil => simp
        | cons p ps => rw [hsp] at ih; simp at ih ⊢; omega
  obtain ⟨s1, h1, _, h2⟩ := C55_samples norm files parse name path text _ hn hp hfile hparts (by omega)
  rw [hs] at h1
  cases h1
  have hle2 : (nonEmpty (splitOn (· == '\x00') text)).length ≤ text.length + 1 :=
    Nat.le_trans (List.length_filter_le ..) hle
  rw [h2] at hfile' ⊢
  have hall : ∀ p ∈ nonEmpty (splitOn (· == '\x00') text), p ≠ [] ∧ '\x00' ∉ p := by
    intro p hp
    rw [nonEmpty, List.mem_filter] at hp
    exact ⟨by simpa using hp.2, hparts.2.1 p hp.1⟩
  generalize nonEmpty (splitOn (· == '\x00') text) = samples at *
  cases samples with
  | nil =>
    obtain ⟨s', h3, _, h4⟩ := C55_samples norm files parse name path' [] [[]] hn hp' hfile' ⟨by simp, by simp, rfl⟩ (by decide)
    exact ⟨s', h3, h4⟩
  | cons a l =>
    obtain ⟨s', h3, _, h4⟩ := C55_samples norm files parse name path' _ (a :: l) hn hp' hfile'
      ⟨by simp, fun p hp => (hall p hp).2, rfl⟩ (by omega)
    refine ⟨s', h3, h4.trans ?_⟩
    rw [nonEmpty, List.filter_eq_self]
    intro p hp
    simpa using (hall p hp).1

/-- **C55** `name:path:proportion` uses the first samples of the file, processed one by one in order; samples that become
empty are left out.  Their number is the proportion of all samples, rounded down or up: none for a proportion that is not
positive, all of them for a proportion of one or more. -/
theorem C55_proportion (processors : List Processor) (name path p text : Str) (parts : List Str) (x : F64) (hn : ':' ∉ name)
    (hp : ':' ∉ path) (hq : ':' ∉ p) (hparse : parse p = some x) (hfile : files path = some (enc text))
    (hparts : Parts '\x00' text parts) (hlen : parts.length < 2 ^ 53) :
    ∃ s count, load norm files parse processors (name ++ ':' :: path ++ ':' :: p) = .ok s ∧
      s.processedSamples = nonEmpty (((nonEmpty parts).take count).map fun sample =>
        processors.foldl (fun text processor => processor.preprocess norm text) sample) ∧
      match x with
      | .num true _ => count = 0
      | .num false k =>
        -- `k / 2¹⁰⁷⁴` is the proportion
        (k ≤ 2 ^ 1074 → (nonEmpty parts).length * k < (count + 1) * 2 ^ 1074 ∧
          count * 2 ^ 1074 < (nonEmpty parts).length * k + 2 ^ 1074) ∧
        (2 ^ 1074 ≤ k → (nonEmpty parts).length ≤ count)
      | _ => True := by
  have hlen' : (nonEmpty parts).length < 2 ^ 53 := Nat.lt_of_le_of_lt (List.length_filter_le ..) hlen
  refine ⟨_, quota (nonEmpty parts).length x,
    by rw [load, load_three hn hp hq]; dsimp only; rw [if_neg (by simp), hparse, hfile]; dsimp only; rw [samplesOf_text hparts], ?_, ?_⟩
  · dsimp only
    unfold nonEmpty
    congr 1
    funext s
    cases s <;> simp
  · generalize (nonEmpty parts).length = n at hlen'
    match x with
    | .nan => trivial
    | .inf _ => trivial
    | .num true k => exact quota_neg n hlen' k
    | .num false k =>
      dsimp only
      have hlo := fun a ha => le_quota (n := n) (k := k) (a := a) hlen' ha
      have hhi := fun a ha => quota_le (n := n) (k := k) (a := a) hlen' ha
      have hpos : 0 < 2 ^ 1074 := Nat.pow_pos (by omega)
      generalize quota n (.num false k) = q at hlo hhi ⊢
      generalize 2 ^ 1074 = U at hlo hhi hpos ⊢
      refine ⟨fun hk => ⟨?_, ?_⟩, fun hk => hlo n hlen' (Nat.mul_le_mul_left _ hk)⟩
      · have hd : n * k / U ≤ n := by
          have : n * k ≤ n * U := Nat.mul_le_mul_left _ hk
          exact (Nat.div_le_iff_le_mul hpos).2 (by omega)
        have h1 := hlo (n * k / U) (by omega) (Nat.div_mul_le_self _ _)
        have h2 : n * k < (n * k / U + 1) * U := by
          rw [Nat.mul_comm (_ + 1) U]; exact Nat.lt_mul_div_succ _ hpos
        exact Nat.lt_of_lt_of_le h2 (Nat.mul_le_mul_right _ (by omega))
      · have hc : (n * k + U - 1) / U ≤ n := by
          have : n * k ≤ n * U := Nat.mul_le_mul_left _ hk
          have h3 : (n * k + U - 1) / U < n + 1 := (Nat.div_lt_iff_lt_mul hpos).2 (by rw [Nat.succ_mul]; omega)
          omega
        have h4 : n * k ≤ (n * k + U - 1) / U * U := by
          have h5 : n * k + U - 1 < ((n * k + U - 1) / U + 1) * U := by
            rw [Nat.mul_comm (_ + 1) U]; exact Nat.lt_mul_div_succ _ hpos
          rw [Nat.succ_mul] at h5
          omega
        have h1 := hhi ((n * k + U - 1) / U) (by omega) h4
        have h2 : (n * k + U - 1) / U * U ≤ n * k + U - 1 := Nat.div_mul_le_self _ _
        have h6 := Nat.mul_le_mul_right U h1
        omega

/-- **C55** The format of a source: it loads only if it consists of a name and a path, and perhaps a proportion, without
further colons. -/
theorem C55_format (processors : List Processor) (source : Str) (s : Source)
    (h : load norm files parse processors source = .ok s) :
    (∃ path, Parts ':' source [s.name, path]) ∨ ∃ path p x, Parts ':' source [s.name, path, p] ∧ parse p = some x := by
  have hparts := splitOn_parts ':' source
  rw [load] at h
  cases hsp : splitOn (· == ':') source with
  | nil => rw [hsp] at h; cases h
  | cons name l =>
    cases l with
    | nil => rw [hsp] at h; cases h
    | cons path rest =>
      rw [hsp] at h hparts
      dsimp only at h
      by_cases hr : rest.length > 1
      · rw [if_pos hr] at h; cases h
      · rw [if_neg hr] at h
        have hname : s.name = name := by
          revert h
          split
          · split
            · intro h; cases h
            · intro h; cases h; rfl
          · intro h; cases h
        subst hname
        match rest, hr with
        | [], _ => exact Or.inl ⟨path, hparts⟩
        | [p], _ =>
          refine Or.inr ⟨path, p, ?_⟩
          cases hx : parse p with
          | none => simp only [hx] at h; cases h
          | some x => exact ⟨x, hparts, rfl⟩
        | _ :: _ :: _, hr => exact absurd (by simp) hr

/-- **C55** Several sources: the training samples are those of all the sources, in any order, each as often as it occurs. -/
theorem C55_shuffled (processors : List Processor) (sources : List Str) (loaded : List Source) (samples : List Str)
    (h : loadAll norm files parse processors sources = .ok loaded) (hs : Shuffled loaded samples) :
    List.Forall₂ (fun source s => load norm files parse processors source = .ok s) sources loaded ∧
    ∀ t, samples.count t = (loaded.map fun s => s.processedSamples.count t).sum := by
  constructor
  · clear hs
    unfold loadAll at h
    induction sources generalizing loaded with
    | nil => simp only [List.mapM_nil] at h; cases h; exact .nil
    | cons a l ih =>
      rw [List.mapM_cons] at h
      cases ha : load norm files parse processors a with
      | error e => rw [ha] at h; cases h
      | ok x =>
        rw [ha] at h
        cases hl : l.mapM (load norm files parse processors) with
        | error e => rw [hl] at h; cases h
        | ok xs => rw [hl] at h; cases h; exact .cons ha (ih _ hl)
  · intro t
    rw [hs.count_eq, List.count_flatMap]
    rfl

/-! ### Non-vacuity -/

/-- A file system with one file: "ab", an empty sample, and "é". -/
def exFiles (path : Str) : Option (List UInt8) := if path = ['f'] then some [97, 98, 0, 0, 0xC3, 0xA9] else none

example : ∃ s, load (fun _ s => s) exFiles (fun _ => none) [] "train:f".toList = .ok s ∧ s.name = "train".toList ∧
    s.processedSamples = ["ab".toList, "é".toList] := by
  obtain ⟨s, h1, h2, h3⟩ := C55_samples (fun _ s => s) exFiles (fun _ => none) "train".toList ['f']
    ['a', 'b', '\x00', '\x00', 'é'] [['a', 'b'], [], ['é']] (by decide) (by decide) (by decide)
    ⟨by decide, by decide, by decide⟩ (by decide)
  exact ⟨s, h1, h2, h3⟩

example : ∀ text, ([97, 0xC3, 0, 0xA9] : List UInt8) ≠ enc text := by
  intro text h
  have := fromUtf8_enc text
  rw [← h] at this
  exact absurd this (by rw [show fromUtf8 [97, 0xC3, 0, 0xA9] = none from by decide]; simp)

end Tokengeex

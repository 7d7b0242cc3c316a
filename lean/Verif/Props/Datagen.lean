import Verif.Model.Scripts
import Verif.Spec.Scripts
import Verif.Props.Sources
/-
C92: the data files that scripts/datagen.py writes.
-/
namespace Tokengeex
open Spec Scripts

theorem fileOf_append (a b : List Str) : fileOf (a ++ b) = fileOf a ++ fileOf b := by
  unfold fileOf; rw [List.flatMap_append]

theorem fileOf_snoc (a : List Str) (s : Str) : fileOf (a ++ [s]) = fileOf a ++ enc s ++ [0] := by
  rw [fileOf_append]; simp [fileOf]

/-- What is true of the two files while they are written. -/
structure Writing (test train : Nat) (st : Splits) (inTest inTrain : List Str) : Prop where
  testFile : st.test = fileOf inTest
  trainFile : st.train = fileOf inTrain
  written : st.written = (fileOf inTest).length + (fileOf inTrain).length
  testShort : ∀ front last, inTest = front ++ [last] → (fileOf front).length < test
  begun : inTrain ≠ [] → test ≤ (fileOf inTest).length
  trainShort : ∀ front last, inTrain = front ++ [last] → (fileOf inTest).length + (fileOf front).length < test + train

theorem Writing.start (test train : Nat) : Writing test train ⟨[], [], 0⟩ [] [] := by
  refine ⟨rfl, rfl, rfl, ?_, by simp, ?_⟩ <;> intro front last h <;> simp at h

theorem writeSample_none {test train : Nat} {st : Splits} {s : Str} (h : writeSample test train st s = none) :
    test + train ≤ st.written := by
  unfold writeSample at h
  by_cases h1 : st.written < test
  · simp [h1] at h
  · by_cases h2 : st.written < test + train
    · simp [h1, h2] at h
    · omega

theorem writeSample_some {test train : Nat} {st st' : Splits} {s : Str} {a b : List Str} (hw : Writing test train st a b)
    (h : writeSample test train st s = some st') :
    (b = [] ∧ Writing test train st' (a ++ [s]) []) ∨ (test ≤ (fileOf a).length ∧ Writing test train st' a (b ++ [s])) := by
  obtain ⟨w1, w2, w3, w4, w5, w6⟩ := hw
  unfold writeSample at h
  by_cases h1 : st.written < test
  · left
    have hb : b = [] := by
      by_contra hb
      have := w5 hb
      omega
    subst hb
    simp only [h1, if_true, Option.some.injEq] at h
    subst h
    refine ⟨rfl, ?_, w2, ?_, ?_, by simp, ?_⟩
    · simp [w1, fileOf_snoc]
    · rw [fileOf_snoc]
      simp only [List.length_append, List.length_cons, List.length_nil]
      omega
    · intro front last e
      obtain ⟨rfl, _⟩ := List.append_inj' e rfl
      have : (fileOf ([] : List Str)).length = 0 := rfl
      omega
    · intro front last e
      simp at e
  · by_cases h2 : st.written < test + train
    · right
      simp only [h1, if_false, h2, if_true, Option.some.injEq] at h
      subst h
      have ht : test ≤ (fileOf a).length := by
        by_cases hb : b = []
        · subst hb
          have : (fileOf ([] : List Str)).length = 0 := rfl
          omega
        · exact w5 hb
      refine ⟨ht, w1, ?_, ?_, w4, fun _ => ht, ?_⟩
      · simp [w2, fileOf_snoc]
      · rw [fileOf_snoc]
        simp only [List.length_append, List.length_cons, List.length_nil]
        omega
      · intro front last e
        obtain ⟨rfl, _⟩ := List.append_inj' e rfl
        omega
    · simp [h1, h2] at h

theorem Writing.done {test train : Nat} {st : Splits} {a b : List Str} (hw : Writing test train st a b) (rest : List Str)
    (h : test + train ≤ st.written ∨ rest = []) : QuotaSplit test train (a ++ b ++ rest) a b rest := by
  have hw3 := hw.written
  refine ⟨rfl, hw.testShort, ?_, hw.trainShort, ?_⟩
  · by_cases hb : b = []
    · subst hb
      have : (fileOf ([] : List Str)).length = 0 := rfl
      rcases h with h | h
      · left; omega
      · right; exact ⟨rfl, h⟩
    · left; exact hw.begun hb
  · rcases h with h | h
    · left; omega
    · right; exact h

theorem stackLoop_spec (accept : StackSample → Bool) (test train : Nat) : ∀ (samples : List StackSample) (st : Splits) (a b),
    Writing test train st a b → ∃ a' b' rest,
      QuotaSplit test train (a ++ b ++ (samples.filter accept).map (·.content)) a' b' rest ∧
      (stackLoop accept test train samples st).test = fileOf a' ∧ (stackLoop accept test train samples st).train = fileOf b' := by
  intro samples
  induction samples with
  | nil =>
    intro st a b hw
    exact ⟨a, b, [], hw.done [] (.inr rfl), hw.testFile, hw.trainFile⟩
  | cons s samples ih =>
    intro st a b hw
    rw [stackLoop]
    by_cases hs : accept s = true
    · rw [if_pos hs, List.filter_cons_of_pos hs, List.map_cons]
      cases hx : writeSample test train st s.content with
      | none =>
        refine ⟨a, b, s.content :: (samples.filter accept).map (·.content), hw.done _ (.inl (writeSample_none hx)), hw.testFile, hw.trainFile⟩
      | some st' =>
        rcases writeSample_some hw hx with ⟨rfl, h⟩ | ⟨_, h⟩
        · obtain ⟨a', b', rest, h1, h2, h3⟩ := ih st' _ _ h
          exact ⟨a', b', rest, by simpa using h1, h2, h3⟩
        · obtain ⟨a', b', rest, h1, h2, h3⟩ := ih st' _ _ h
          exact ⟨a', b', rest, by simpa using h1, h2, h3⟩
    · rw [if_neg hs, List.filter_cons_of_neg hs]
      exact ih st a b hw

/-- **C92** What `generate_the_stack` writes: the samples that pass the tests, in the order of the stream, first to the test
file and then to the training file, divided by the two quotas in bytes; no sample goes to both. -/
theorem C92_split (accept : StackSample → Bool) (train test : Nat) (samples : List StackSample) :
    ∃ inTest inTrain rest, QuotaSplit test train ((samples.filter accept).map (·.content)) inTest inTrain rest ∧
      (generateStack accept train test samples).test = fileOf inTest ∧
      (generateStack accept train test samples).train = fileOf inTrain :=
  stackLoop_spec accept test train samples ⟨[], [], 0⟩ [] [] (Writing.start test train)

/-- **C92** Every sample in the files passed the tests on its size, its lines, its characters and what looks like data, and
every sample that passes is in the stream that is divided. -/
theorem C92_accepts (isDigit : Char → Bool) (found : Str → List (List Nat)) (exceeds : Nat → Nat → Nat → Bool) (lang : Str)
    (s : StackSample) : accepts isDigit found exceeds lang s = true ↔
      (16 ≤ s.size ∧ s.size ≤ 2 ^ 18) ∧ (lang ∈ dataLanguages → s.content.count '\n' ≤ 256) ∧
      (¬ F64.lt (F64.ofNat 100) s.avgLineLength = true ∧ ¬ F64.lt s.avgLineLength (F64.ofNat 10) = true ∧ s.maxLineLength ≤ 1000) ∧
      ¬ F64.lt s.alphanumFraction (F64.num false (2 ^ 1072)) = true ∧
      exceeds (s.content.countP isDigit) s.content.length 3 = false ∧
      (∀ lengths ∈ found s.content, (∀ n ∈ lengths, n ≤ 256) ∧ exceeds lengths.sum s.content.length 5 = false) ∧
      exceeds (s.content.countP fun c => decide (0x7f < c.toNat ∧ ¬ (0x4e00 ≤ c.toNat ∧ c.toNat ≤ 0x9fff) ∧
        ¬ (0x3400 ≤ c.toNat ∧ c.toNat ≤ 0x4dbf) ∧ ¬ (0xf900 ≤ c.toNat ∧ c.toNat ≤ 0xfaff))) s.content.length 2 = false := by
  have hforeign : (fun c : Char => decide (0x7f < c.toNat ∧ ¬ (0x4e00 ≤ c.toNat ∧ c.toNat ≤ 0x9fff) ∧
      ¬ (0x3400 ≤ c.toNat ∧ c.toNat ≤ 0x4dbf) ∧ ¬ (0xf900 ≤ c.toNat ∧ c.toNat ≤ 0xfaff))) = isForeign := by
    funext c
    rw [Bool.eq_iff_iff]
    simp only [isForeign, decide_eq_true_eq, Bool.and_eq_true, Bool.not_eq_true', Bool.or_eq_false_iff, Bool.and_eq_false_iff,
      decide_eq_false_iff_not]
    omega
  rw [hforeign]
  unfold accepts
  simp only
  generalize F64.num false (2 ^ 1072) = quarter
  generalize F64.lt (F64.ofNat 100) s.avgLineLength = a
  generalize F64.lt s.avgLineLength (F64.ofNat 10) = b
  generalize F64.lt s.alphanumFraction quarter = e
  by_cases h1 : (decide (s.size < 16) || decide (262144 < s.size)) = true
  · rw [if_pos h1]
    simp only [Bool.or_eq_true, decide_eq_true_eq] at h1
    constructor
    · intro h; cases h
    · intro h; have := h.1; omega
  rw [if_neg h1]
  by_cases h2 : (decide (lang ∈ dataLanguages) && decide (256 < s.content.count '\n')) = true
  · rw [if_pos h2]
    simp only [Bool.and_eq_true, decide_eq_true_eq] at h2
    constructor
    · intro h; cases h
    · intro h; have := h.2.1 h2.1; omega
  rw [if_neg h2]
  by_cases h3 : (a || b || decide (1000 < s.maxLineLength)) = true
  · rw [if_pos h3]
    simp only [Bool.or_eq_true, decide_eq_true_eq] at h3
    constructor
    · intro h; cases h
    · intro h
      obtain ⟨g1, g2, g3⟩ := h.2.2.1
      rcases h3 with (h3 | h3) | h3
      · exact absurd h3 g1
      · exact absurd h3 g2
      · omega
  rw [if_neg h3]
  by_cases h4 : e = true
  · rw [if_pos h4]
    constructor
    · intro h; cases h
    · intro h; exact absurd h4 h.2.2.2.1
  rw [if_neg h4]
  by_cases h5 : exceeds (s.content.countP isDigit) s.content.length 3 = true
  · rw [if_pos h5]
    constructor
    · intro h; cases h
    · intro h; rw [h.2.2.2.2.1] at h5; cases h5
  rw [if_neg h5]
  by_cases h6 : ((found s.content).any fun lengths => lengths.any (fun n => decide (256 < n)) ||
      exceeds lengths.sum s.content.length 5) = true
  · rw [if_pos h6]
    constructor
    · intro h; cases h
    · intro h
      rw [List.any_eq_true] at h6
      obtain ⟨l, hl, h6⟩ := h6
      obtain ⟨g1, g2⟩ := h.2.2.2.2.2.1 l hl
      rw [g2, Bool.or_false, List.any_eq_true] at h6
      obtain ⟨n, hn, h6⟩ := h6
      have := g1 n hn
      have := of_decide_eq_true h6
      omega
  rw [if_neg h6]
  have h6' : ∀ lengths ∈ found s.content, (∀ n ∈ lengths, n ≤ 256) ∧ exceeds lengths.sum s.content.length 5 = false := by
    intro l hl
    rw [Bool.not_eq_true, List.any_eq_false] at h6
    have := h6 l hl
    rw [Bool.not_eq_true, Bool.or_eq_false_iff, List.any_eq_false] at this
    exact ⟨fun n hn => by have := this.1 n hn; simpa using this, this.2⟩
  simp only [Bool.or_eq_true, Bool.and_eq_true, decide_eq_true_eq, not_or, not_and] at h1 h2 h3
  by_cases h7 : exceeds (s.content.countP isForeign) s.content.length 2 = true
  · rw [if_pos h7]
    constructor
    · intro h; cases h
    · intro h; rw [h.2.2.2.2.2.2] at h7; cases h7
  rw [if_neg h7]
  simp only [true_iff]
  exact ⟨by omega, fun h => by have := h2 h; omega, ⟨h3.1.1, h3.1.2, by omega⟩, h4, by simpa using h5, h6', by simpa using h7⟩

/-- **C92** The division is determined by the stream and the quotas. -/
theorem C92_unique {test train : Nat} {stream a b c a' b' c' : List Str} (h : QuotaSplit test train stream a b c)
    (h' : QuotaSplit test train stream a' b' c') : a = a' ∧ b = b' ∧ c = c' := by
  have mono : ∀ x y : List Str, (fileOf x).length ≤ (fileOf (x ++ y)).length := by
    intro x y; rw [fileOf_append, List.length_append]; omega
  have key : ∀ {t u : Nat} {s a b c a' b' c' : List Str}, QuotaSplit t u s a b c → QuotaSplit t u s a' b' c' →
      ∀ e, a = a' ++ e → e = [] := by
    intro t u s a b c a' b' c' h h' e he
    rcases List.eq_nil_or_concat e with rfl | ⟨f, l, rfl⟩
    · rfl
    · exfalso
      rw [List.concat_eq_append, ← List.append_assoc] at he
      have h1 := h.testShort _ _ he
      have h2 := mono a' f
      rcases h'.testFull with h3 | ⟨rfl, rfl⟩
      · omega
      · have := h.all.symm.trans h'.all
        have := congrArg List.length this
        simp [he] at this
  have key2 : ∀ {s a b c b' c' : List Str}, QuotaSplit test train s a b c → QuotaSplit test train s a b' c' →
      ∀ e, b = b' ++ e → e = [] := by
    intro s a b c b' c' h h' e he
    rcases List.eq_nil_or_concat e with rfl | ⟨f, l, rfl⟩
    · rfl
    · exfalso
      rw [List.concat_eq_append, ← List.append_assoc] at he
      have h1 := h.trainShort _ _ he
      have h2 := mono b' f
      rcases h'.trainFull with h3 | rfl
      · omega
      · have := h.all.symm.trans h'.all
        have := congrArg List.length this
        simp [he] at this
  have hall := h.all.symm.trans h'.all
  have ha : a = a' := by
    rw [List.append_assoc, List.append_assoc] at hall
    rcases List.append_eq_append_iff.1 hall with ⟨e, h1, _⟩ | ⟨e, h1, _⟩
    · have := key h' h e h1; subst this; simpa using h1.symm
    · have := key h h' e h1; subst this; simpa using h1
  subst ha
  rw [List.append_assoc, List.append_assoc] at hall
  have hall := List.append_cancel_left hall
  have hb : b = b' := by
    rcases List.append_eq_append_iff.1 hall with ⟨e, h1, _⟩ | ⟨e, h1, _⟩
    · have := key2 h' h e h1; subst this; simpa using h1.symm
    · have := key2 h h' e h1; subst this; simpa using h1
  subst hb
  exact ⟨rfl, rfl, List.append_cancel_left hall⟩

/-- The text of a file of samples. -/
theorem fileOf_text (samples : List Str) : fileOf samples = enc (List.intercalate ['\x00'] (samples ++ [[]])) := by
  induction samples with
  | nil => rfl
  | cons s ss ih =>
    have e : List.intercalate ['\x00'] (s :: ss ++ [[]]) = s ++ ['\x00'] ++ List.intercalate ['\x00'] (ss ++ [[]]) := by
      cases ss with
      | nil => simp [List.intercalate, List.intersperse]
      | cons t ts => exact intercalate_cons_cons _ _ _ _
    rw [e, enc_append, enc_append, ← ih]
    rfl

theorem parts_fileOf {samples : List Str} (hn : ∀ s ∈ samples, '\x00' ∉ s) :
    Parts '\x00' (List.intercalate ['\x00'] (samples ++ [[]])) (samples ++ [[]]) := by
  refine ⟨by simp, ?_, rfl⟩
  intro p hp
  rcases List.mem_append.1 hp with h | h
  · exact hn p h
  · rw [List.mem_singleton.1 h]; simp

variable {norm : UnicodeForm → Str → Str} {files : Str → Option (List UInt8)} {parse : Str → Option F64}

/-- **C92** `tokengeex` reads back exactly the samples that were written, in order, if none is empty or holds a NUL. -/
theorem C92_readback (name path : Str) (samples : List Str) (hn : ':' ∉ name) (hp : ':' ∉ path)
    (hfile : files path = some (fileOf samples)) (hs : ∀ s ∈ samples, s ≠ [] ∧ '\x00' ∉ s) (hlen : samples.length + 1 < 2 ^ 53) :
    ∃ src, Source.load norm files parse [] (name ++ ':' :: path) = .ok src ∧ src.processedSamples = samples := by
  rw [fileOf_text] at hfile
  obtain ⟨src, h1, _, h2⟩ := C55_samples norm files parse name path _ _ hn hp hfile
    (parts_fileOf fun s h => (hs s h).2) (by simpa using hlen)
  refine ⟨src, h1, ?_⟩
  rw [h2]
  unfold nonEmpty
  rw [List.filter_append, List.filter_eq_self.2 (by intro s h; simpa using (hs s h).1)]
  simp

/-- **C92** The scripts that read such a file (evaluate, find, convert, trainbpe) see one sample more, an empty one. -/
theorem C92_scripts_readback (text : Str) (samples : List Str) (hfile : enc text = fileOf samples)
    (hs : ∀ s ∈ samples, '\x00' ∉ s) : pySamples text = samples ++ [[]] := by
  rw [fileOf_text] at hfile
  have := enc_injective hfile
  rw [this]
  exact splitOn_of_parts (parts_fileOf hs)

/-- **C92** A sample that holds a NUL does not come back: it becomes two. -/
theorem C92_nul (name path : Str) (a b : Str) (hn : ':' ∉ name) (hp : ':' ∉ path) (ha : a ≠ [] ∧ '\x00' ∉ a)
    (hb : b ≠ [] ∧ '\x00' ∉ b) (hfile : files path = some (fileOf [a ++ '\x00' :: b])) :
    ∃ src, Source.load norm files parse [] (name ++ ':' :: path) = .ok src ∧ src.processedSamples = [a, b] := by
  apply C92_readback name path [a, b] hn hp
  · rw [hfile]
    congr 1
    simp only [fileOf, List.flatMap_cons, List.flatMap_nil, List.append_nil]
    have : enc (a ++ '\x00' :: b) = enc a ++ ([0] ++ enc b) := by
      rw [enc_append]; rfl
    rw [this]
    simp
  · intro s hs
    rcases List.mem_cons.1 hs with rfl | h
    · exact ha
    · rw [List.mem_singleton.1 h]; exact hb
  · simp

/-- **C92** The number of lines is no reason to leave a sample out, except in the six data languages: the limit of 4096 lines
only counts. -/
theorem C92_lines_false (isDigit : Char → Bool) (found : Str → List (List Nat)) (exceeds : Nat → Nat → Nat → Bool) (lang : Str)
    (hl : lang ∉ dataLanguages) (hd : isDigit ';' = false ∧ isDigit '\n' = false) (hf : ∀ s, found s = [[], [], []])
    (he : ∀ n p, exceeds 0 n p = false) (n : Nat) :
    ∃ s : StackSample, s.content.count '\n' = n ∧ accepts isDigit found exceeds lang s = true := by
  refine ⟨⟨(List.replicate n [';', '\n']).flatten, 1000, F64.ofNat 20, 20, F64.ofNat 1⟩, ?_, ?_⟩
  · induction n with
    | zero => rfl
    | succ n ih =>
      simp only [List.replicate_succ, List.flatten_cons, List.count_append, ih]
      simp
      omega
  · have hz : ∀ p : Char → Bool, p ';' = false → p '\n' = false → (List.replicate n [';', '\n']).flatten.countP p = 0 := by
      intro p h1 h2
      rw [List.countP_eq_zero]
      intro c hc
      obtain ⟨l, hl, hc⟩ := List.mem_flatten.1 hc
      rw [List.eq_of_mem_replicate hl] at hc
      rcases List.mem_cons.1 hc with rfl | hc
      · simp [h1]
      · rw [List.mem_singleton.1 hc]; simp [h2]
    unfold accepts
    simp only [hz isDigit hd.1 hd.2, hz isForeign (by decide) (by decide), he, hf, hl]
    have e1 : F64.lt (F64.ofNat 100) (F64.ofNat 20) = false := by decide +kernel
    have e2 : F64.lt (F64.ofNat 20) (F64.ofNat 10) = false := by decide +kernel
    have e3 : F64.lt (F64.ofNat 1) (F64.num false (2 ^ 1072)) = false := by decide +kernel
    simp [e1, e2, e3, he]

/-- **C92** `generate_chinese_markdown` fails at the first sample, whatever it is, as soon as one of the quotas is positive. -/
theorem C92_markdown_false (train test : Nat) (s : Str) (samples : List Str) (h : 0 < test + train) :
    generateMarkdown train test (s :: samples) = none := by
  have h1 : openFiles markdownSplits "test".toList = false := by decide
  have h2 : openFiles markdownSplits "train".toList = false := by decide
  unfold generateMarkdown markdownLoop
  rw [h1, h2]
  by_cases ht : 0 < test
  · simp [ht]
  · have : 0 < train := by omega
    simp [ht, this]

/-- With the comma in place it would write what `generate_the_stack` writes. -/
theorem C92_markdown_comma (train test : Nat) (samples : List Str) :
    ∃ st inTest inTrain rest, markdownLoop ["train".toList, "test".toList] test train samples ⟨[], [], 0⟩ = some st ∧
      QuotaSplit test train samples inTest inTrain rest ∧ st.test = fileOf inTest ∧ st.train = fileOf inTrain := by
  have h1 : openFiles ["train".toList, "test".toList] "test".toList = true := by decide
  have h2 : openFiles ["train".toList, "test".toList] "train".toList = true := by decide
  have key : ∀ (samples : List Str) (st : Splits),
      markdownLoop ["train".toList, "test".toList] test train samples st =
        some (stackLoop (fun _ => true) test train (samples.map fun c => ⟨c, 0, .nan, 0, .nan⟩) st) := by
    intro samples
    induction samples with
    | nil => intro st; rfl
    | cons s samples ih =>
      intro st
      rw [markdownLoop, h1, h2, List.map_cons, stackLoop]
      simp only [Bool.not_true, Bool.and_false, Bool.false_eq_true, if_false, if_true]
      cases writeSample test train st s with
      | none => rfl
      | some st' => exact ih st'
  obtain ⟨a, b, c, h, h3, h4⟩ := C92_split (fun _ => true) train test (samples.map fun c => ⟨c, 0, .nan, 0, .nan⟩)
  refine ⟨_, a, b, c, key _ _, ?_, h3, h4⟩
  have e : (samples.map fun c : Str => (⟨c, 0, .nan, 0, .nan⟩ : StackSample)).filter (fun _ => true) =
      samples.map fun c : Str => (⟨c, 0, .nan, 0, .nan⟩ : StackSample) := List.filter_eq_self.2 (fun _ _ => rfl)
  rw [e, List.map_map] at h
  exact (List.map_id samples) ▸ h

/-- Non-vacuity: four samples, the second of which is rejected, and quotas that the first and the third just exceed. -/
example : generateStack (fun s => s.size != 0) 1 2 [⟨['a', 'b'], 1, .nan, 0, .nan⟩, ⟨['x'], 0, .nan, 0, .nan⟩,
    ⟨['c'], 1, .nan, 0, .nan⟩, ⟨['d'], 1, .nan, 0, .nan⟩] = ⟨[97, 98, 0], [], 3⟩ := by decide
example : generateStack (fun s => s.size != 0) 3 2 [⟨['a', 'b'], 1, .nan, 0, .nan⟩, ⟨['x'], 0, .nan, 0, .nan⟩,
    ⟨['c'], 1, .nan, 0, .nan⟩, ⟨['d'], 1, .nan, 0, .nan⟩] = ⟨[97, 98, 0], [99, 0], 5⟩ := by decide
example : "python".toList ∉ dataLanguages := by decide

end Tokengeex

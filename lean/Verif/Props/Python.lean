import Verif.Proofs.Python
import Verif.Props.Batch
import Verif.Props.JsonGrammar
import Verif.Props.Cli
/-
C76 and C77: programs that use the Python class (bindings/python/src/lib.rs).

`Session norm N ⟨[], files⟩ past w` says that a program that starts with the files `files`, makes the calls `past` (with the
replies recorded there) and runs beside other programs that may change the files between its calls, has reached `w`.
-/
namespace Tokengeex
open Spec Python Tokenizer
variable {F : Type} [ScoreOps F] {norm : UnicodeForm → Str → Str} {N : NumText F}

private theorem built_nil (files : Cli.Files) : (World.mk ([] : List (Tokenizer F)) files).Built := by
  intro t ht; cases ht

/-- **C76**, objects.  Whatever a program did, every object it has is a tokenizer made by the constructor of the crate from a
vocabulary, processors and special tokens: the theorems about `build vocab ps specials ops` hold for it. -/
theorem C76_reachable {files : Cli.Files} {past : List (Call F × Reply F)} {w : World F}
    (h : Session norm N ⟨[], files⟩ past w) {k : Nat} {t : Tokenizer F} (hk : w.objects[k]? = some t) :
    ∃ vocab ps specials, t = build vocab ps specials [] :=
  h.built (built_nil files) t (List.mem_of_getElem? hk)

/-- **C76**, changes.  However many calls are made, on whichever objects, and whatever happens to the files: as long as none of
them is `__setstate__` on object `k`, object `k` is the same tokenizer with the special tokens added that were passed to its
own `add_special_tokens`, in that order. -/
theorem C76_changes {w v : World F} {l : List (Call F × Reply F)} (h : Session norm N w l v) {k : Nat} {t : Tokenizer F}
    (hk : w.objects[k]? = some t) (hr : ∀ c ∈ l, ¬ Replaces k c.1) :
    v.objects[k]? = some (t.addSpecialTokens (addedTo k l)) := h.object hk hr

/-- **C76**, settled answers.  A settled answer (what an id stands for, the id of a token, the text of decoded ids, anything
about the base vocabulary) is given again at every later time, whatever is done to the object in between except
`__setstate__`. -/
theorem C76_settled {files : Cli.Files} {past l : List (Call F × Reply F)} {w v u u' : World F}
    (h : Session norm N ⟨[], files⟩ past w) {k : Nat} {q : Query} {x : Value F} {r : Reply F} (hq : Settled q x)
    (h1 : Step norm N w (.query k q) (.ok x) v) (h2 : Session norm N v l u) (hr : ∀ c ∈ l, ¬ Replaces k c.1)
    (h3 : Step norm N u (.query k q) r u') : r = .ok x := by
  cases h1 with
  | query hk ha =>
    rename_i t
    obtain ⟨vo, ps, sp, rfl⟩ := C76_reachable h hk
    have hu := C76_changes h2 hk hr
    cases h3 with
    | query hk' ha' =>
      rw [hu] at hk'
      injection hk' with hk'
      subst hk'
      rw [answer_settled (wf_build vo ps sp []) _ hq ha] at ha'
      injection ha' with ha'
      exact ha'.symm

/-- **C76**, round trip over time.  If `encode` returned `ids`, then `decode(ids, True)`, called at any later time and after any
calls except `__setstate__` on the object, returns the text with the processors applied to its ordinary pieces and its special
tokens untouched, where the special tokens are those registered when it was encoded. -/
theorem C76_round_trip {files : Cli.Files} {past l : List (Call F × Reply F)} {w v u u' : World F}
    (h : Session norm N ⟨[], files⟩ past w) {k : Nat} {s : Str} {d : F} {ids : List TokenID} {r : Reply F}
    (h1 : Step norm N w (.encode k s d) (.ok (.ids ids)) v) (h2 : Session norm N v l u) (hr : ∀ c ∈ l, ¬ Replaces k c.1)
    (h3 : Step norm N u (.query k (.decode ids true)) r u') :
    ∃ t pieces, w.objects[k]? = some t ∧ IsSplit t.specialTokens s pieces ∧ r = .ok (.text (pieces.flatMap fun piece =>
      if piece.2 then piece.1 else t.processors.foldl (fun s p => p.preprocess norm s) piece.1)) := by
  cases h1 with
  | encode rnd hk ha =>
    rename_i t
    obtain ⟨vo, ps, sp, rfl⟩ := C76_reachable h hk
    have hps := (build_spec vo ps sp []).2.1
    obtain ⟨y, hy, e⟩ := reply_ok ha
    injection e with e
    subst e
    obtain ⟨pieces, hsplit, hd⟩ := C18_round_trip norm vo ps sp [] s d rnd ids hy
    refine ⟨_, pieces, hk, hsplit, ?_⟩
    rw [hps]
    refine C76_settled h (l := l) .decode (Step.query hk ?_) h2 hr h3
    simp only [answer]
    rw [hd]; rfl

/-- **C76**, errors.  A call that raises changes neither an object nor a file; and the only call that changes a file is `save`,
and only the file it names. -/
theorem C76_effects {w v : World F} {c : Call F} {r : Reply F} (h : Step norm N w c r v) :
    (∀ e, r = .error e → v = w) ∧ (∀ path, v.files path ≠ w.files path → ∃ k, c = .save k path) := by
  cases h with
  | save hk =>
    refine ⟨(by intro e h; cases h), ?_⟩
    intro p hp
    rename_i k t path
    by_cases e : p = path
    · subst e; exact ⟨k, rfl⟩
    · exact absurd (write_other e) hp
  | saveStopped n hk =>
    refine ⟨(by intro e h; cases h), ?_⟩
    intro p hp
    rename_i k t path
    by_cases e : p = path
    · subst e; exact ⟨k, rfl⟩
    · exact absurd (write_other e) hp
  | addSpecialTokens hk => exact ⟨(by intro e h; cases h), fun p hp => absurd rfl hp⟩
  | setState hk hb => exact ⟨(by intro e h; cases h), fun p hp => absurd rfl hp⟩
  | fromStr hs => exact ⟨(by intro e h; cases h), fun p hp => absurd rfl hp⟩
  | fromFile hs => exact ⟨(by intro e h; cases h), fun p hp => absurd rfl hp⟩
  | _ => exact ⟨fun _ _ => rfl, fun p hp => absurd rfl hp⟩

/-- **C76**, exceptions.  A call on an object of a program raises only what the English documentation of the class allows, for the
reasons it allows: `decode` only because of an id among those given, `encode` only because a text has no segmentation, the
loaders only because they refuse their input; lookups, sizes, `add_special_tokens` and `save` never raise; and no call ends in
a panic. -/
theorem C76_raises {files : Cli.Files} {past : List (Call F × Reply F)} {w v : World F} (h : Session norm N ⟨[], files⟩ past w)
    {c : Call F} {e : Raised} (hs : Step norm N w c (.error e) v) : MayRaise c e := by
  cases hs with
  | query hk ha =>
    rename_i k t q
    cases q with
    | decode ids flag =>
      obtain ⟨vo, ps, sp, rfl⟩ := C76_reachable h hk
      rcases reply_error ha with ⟨hx, _⟩ | ⟨x, hx, _, rfl⟩
      · obtain ⟨i, _, hi⟩ := decode_error hx; cases hi
      · obtain ⟨i, hi, rfl⟩ := decode_error hx; exact .decode hi
    | _ => simp [answer] at ha
  | encode rnd hk ha =>
    obtain ⟨vo, ps, sp, rfl⟩ := C76_reachable h hk
    rcases reply_error ha with ⟨hx, _⟩ | ⟨x, hx, hd, rfl⟩
    · rcases encode_error (wf_build vo ps sp []) hx with h | ⟨_, h⟩ <;> cases h
    · rcases encode_error (wf_build vo ps sp []) hx with h | ⟨n, rfl⟩
      · exact absurd h hd
      · exact .encode
  | encodeOrdinary rnd hk ha =>
    obtain ⟨vo, ps, sp, rfl⟩ := C76_reachable h hk
    rcases reply_error ha with ⟨hx, _⟩ | ⟨x, hx, hd, rfl⟩
    · obtain ⟨_, h⟩ := encodeOrdinary_error (wf_build vo ps sp []) hx; cases h
    · obtain ⟨n, rfl⟩ := encodeOrdinary_error (wf_build vo ps sp []) hx
      exact .encodeOrdinary
  | encodeBatch hk hb ha =>
    obtain ⟨vo, ps, sp, rfl⟩ := C76_reachable h hk
    rcases C23_encode_batch _ _ _ _ _ hb with ⟨vs, rfl, _⟩ | ⟨x, rfl, s, hs, rnd, hx⟩
    · rcases reply_error ha with ⟨hx, _⟩ | ⟨x, hx, _⟩ <;> cases hx
    · rcases reply_error ha with ⟨hy, _⟩ | ⟨y, hy, hd, rfl⟩
      · injection hy with hy; subst hy
        rcases encode_error (wf_build vo ps sp []) hx with h | ⟨_, h⟩ <;> cases h
      · injection hy with hy; subst hy
        rcases encode_error (wf_build vo ps sp []) hx with h | ⟨n, rfl⟩
        · exact absurd h hd
        · exact .encodeBatch (List.ne_nil_of_mem hs)
  | encodeOrdinaryBatch hk hb ha =>
    obtain ⟨vo, ps, sp, rfl⟩ := C76_reachable h hk
    rcases C23_encode_ordinary_batch _ _ _ _ _ hb with ⟨vs, rfl, _⟩ | ⟨x, rfl, s, hs, rnd, hx⟩
    · rcases reply_error ha with ⟨hx, _⟩ | ⟨x, hx, _⟩ <;> cases hx
    · obtain ⟨n, rfl⟩ := encodeOrdinary_error (wf_build vo ps sp []) hx
      rcases reply_error ha with ⟨hy, _⟩ | ⟨y, hy, hd, rfl⟩
      · cases hy
      · injection hy with hy; subst hy
        exact .encodeOrdinaryBatch (List.ne_nil_of_mem hs)
  | decodeBatch hk hb ha =>
    obtain ⟨vo, ps, sp, rfl⟩ := C76_reachable h hk
    rename_i k l flag x
    obtain ⟨h1, h2⟩ := C23_decode_batch _ _ _ _ hb
    by_cases hv : ∃ vs : List Str, l.map (fun ids => (build vo ps sp []).decode ids flag) = vs.map .ok
    · obtain ⟨vs, hv⟩ := hv
      rw [h1 vs hv] at ha
      rcases reply_error ha with ⟨hx, _⟩ | ⟨x, hx, _⟩ <;> cases hx
    · obtain ⟨y, rfl, ids, hids, hy⟩ := h2 hv
      obtain ⟨i, hi, rfl⟩ := decode_error hy
      rcases reply_error ha with ⟨hz, _⟩ | ⟨z, hz, hd, rfl⟩
      · cases hz
      · injection hz with hz; subst hz
        exact .decodeBatch hids hi
  | setStateRefused hk hb => exact .setState
  | fromStrRefused hs => exact .fromStr
  | fromFileRefused hs => exact .fromFile

/-- **C76**, objects that are loaded.  `from_str` returns a new object; its tokenizer is the one the document describes; the other
objects are as they were. -/
theorem C76_created {w v : World F} {text : Str} {x : Value F} (h : Step norm N w (.fromStr text) (.ok x) v) :
    ∃ j vocab ps specials, JsonText N 127 text j ∧ IsDocument j vocab ps specials ∧ x = .object w.objects.length ∧
      v.objects = w.objects ++ [build vocab ps specials []] ∧ v.files = w.files := by
  cases h with
  | fromStr hs =>
    obtain ⟨j, vo, ps, sp, h1, h2, rfl⟩ := (C75_loads N text _).1 hs
    exact ⟨j, vo, ps, sp, h1, h2, rfl, rfl, rfl⟩

/-- **C76**, answers.  An object created from a document with the base tokens `vocab` and the special tokens `specials`, which has
seen any calls but `__setstate__`, answers every question about tokens, ids and sizes as `vocab` and the distinct special tokens
given so far (by first mention) require. -/
theorem C76_answers {w v u : World F} {l : List (Call F × Reply F)} {k : Nat} {vocab : List (ScoredToken F)} {ps : List Processor}
    {specials : List Str} (hk : w.objects[k]? = some (build vocab ps specials [])) (h : Session norm N w l v)
    (hr : ∀ c ∈ l, ¬ Replaces k c.1) :
    ∃ reg, FirstOccurrences (specials ++ addedTo k l) reg ∧
      ∀ q x, AboutTokens q → Step norm N v (.query k q) (.ok x) u → Tells vocab reg q x := by
  have hv := C76_changes h hk hr
  rw [build_add] at hv
  obtain ⟨hm, _, hf⟩ := build_spec vocab ps (specials ++ addedTo k l) []
  refine ⟨_, by simpa [givenSpecial] using hf, ?_⟩
  intro q x hq hs
  cases hs with
  | query hk' ha =>
    rw [hv] at hk'
    injection hk' with hk'
    subst hk'
    exact answer_tells (wf_build _ _ _ _) (by simpa [givenBase] using hm) hq ha

/-- **C76**, pickling.  The bytes that `__getstate__` returned, given to `__setstate__` of any object at any later time: it raises
if and only if a special token needs an escape or a score has no text that is read as a number, and then changes nothing; else
the object becomes the tokenizer as it was, up to the scores; and when the scores survive printing, exactly that tokenizer. -/
theorem C76_pickle (hN : PrintsNumbers N) {files : Cli.Files} {past l : List (Call F × Reply F)} {w v u u' : World F}
    (h : Session norm N ⟨[], files⟩ past w) {k j : Nat} {b : List UInt8} {r : Reply F}
    (h1 : Step norm N w (.query k .getState) (.ok (.state b)) v) (h2 : Session norm N v l u)
    (h3 : Step norm N u (.setState j b) r u') :
    ∃ t, w.objects[k]? = some t ∧
      (r = .ok .nothing ↔ (∀ s ∈ t.specialTokens, ∀ c ∈ s, ¬ (c = '"' ∨ c = '\\' ∨ c.toNat < 32)) ∧
        ∀ token ∈ t.model.vocab, ∃ y, reread N token.score = some y) ∧
      (r ≠ .ok .nothing → r = .error .unpickling ∧ u' = u) ∧
      (r = .ok .nothing → ∃ t', u'.objects[j]? = some t' ∧ t'.specialTokens = t.specialTokens ∧ t'.processors = t.processors ∧
        List.Forall₂ (Reloaded N) t.model.vocab t'.model.vocab ∧
        ((∀ token ∈ t.model.vocab, reread N token.score = some token.score) → t' = t)) := by
  cases h1 with
  | query hk ha =>
    rename_i t
    refine ⟨t, hk, ?_⟩
    obtain ⟨vo, ps, sp, rfl⟩ := C76_reachable h hk
    simp only [answer, Option.some.injEq, Except.ok.injEq, Value.state.injEq] at ha
    subst ha
    obtain ⟨hiff, hall⟩ := C28_loaded N hN vo ps sp [] .compact
    rw [← hiff]
    cases h3 with
    | setState hj hb =>
      rw [fromSlice_enc] at hb
      rename_i t0 t'
      refine ⟨⟨fun _ => ⟨t', hb⟩, fun _ => rfl⟩, fun h => absurd rfl h, fun _ => ?_⟩
      obtain ⟨a1, a2, a3, _⟩ := hall t' hb
      refine ⟨t', List.getElem?_set_self (List.getElem?_eq_some_iff.1 hj).1, a1, a2, a3, ?_⟩
      intro hex
      have := (C28_reload_partial N hN vo ps sp [] (hiff.1 ⟨t', hb⟩).1 hex).1
      rw [this] at hb
      injection hb with hb
      exact hb.symm
    | setStateRefused hj hb =>
      rw [fromSlice_enc] at hb
      refine ⟨⟨(fun h => by cases h), ?_⟩, fun _ => ⟨rfl, rfl⟩, (fun h => by cases h)⟩
      rintro ⟨t', ht'⟩
      rw [show Json.write N .compact 0 (build vo ps sp []).toJson = (build vo ps sp []).toString N from rfl, hb] at ht'
      cases ht'

/-- **C77** in full is false.  Of every object and for every path, `save` may return normally although the file is unchanged, and
may return normally although the file is one that does not load: the error of the crate is set as the Python exception,
fetched and dropped. -/
theorem C77_false {w : World F} {k : Nat} {t : Tokenizer F} (hk : w.objects[k]? = some t) (path : Str) :
    Step norm N w (.save k path) (.ok .nothing) w ∧
    ∃ v, Step norm N w (.save k path) (.ok .nothing) v ∧ Step norm N v (.fromFile path) (.error .loading) v := by
  refine ⟨.saveRefused hk, _, .saveStopped 0 hk, .fromFileRefused ?_⟩
  unfold load
  show ((w.files.write path ((Cli.saved N t).take 0)) path).bind (fromSlice N) = none
  rw [write_self, Option.bind_some, List.take_zero, show ([] : List UInt8) = enc [] from rfl, fromSlice_enc]
  rfl

/-- **C77**, what is true.  After `save` returns, the file is as it was, or is one that `from_file` refuses, or loads as the saved
tokenizer up to its scores (`C28_loaded`), and as exactly that tokenizer when the scores survive printing and no special token
needs an escape. -/
theorem C77_save_partial (hN : PrintsNumbers N) {files : Cli.Files} {past : List (Call F × Reply F)} {w v u : World F}
    (h : Session norm N ⟨[], files⟩ past w) {k : Nat} {path : Str} {r r' : Reply F} (h1 : Step norm N w (.save k path) r v)
    (h2 : Step norm N v (.fromFile path) r' u) :
    ∃ t, w.objects[k]? = some t ∧ r = .ok .nothing ∧
      (v.files path = w.files path ∨ r' = .error .loading ∨
        ∃ t', r' = .ok (.object w.objects.length) ∧ u.objects = w.objects ++ [t'] ∧
          t'.specialTokens = t.specialTokens ∧ t'.processors = t.processors ∧
          List.Forall₂ (Reloaded N) t.model.vocab t'.model.vocab) ∧
      (v.files path = some (Cli.saved N t) → (∀ s ∈ t.specialTokens, ∀ c ∈ s, ¬ (c = '"' ∨ c = '\\' ∨ c.toNat < 32)) →
        (∀ token ∈ t.model.vocab, reread N token.score = some token.score) →
        r' = .ok (.object w.objects.length) ∧ u.objects = w.objects ++ [t]) := by
  have full : ∀ {t : Tokenizer F}, w.objects[k]? = some t → v.objects = w.objects → v.files path = some (Cli.saved N t) →
      (r' = .error .loading ∨
        ∃ t', r' = .ok (.object w.objects.length) ∧ u.objects = w.objects ++ [t'] ∧
          t'.specialTokens = t.specialTokens ∧ t'.processors = t.processors ∧
          List.Forall₂ (Reloaded N) t.model.vocab t'.model.vocab) ∧
      ((∀ s ∈ t.specialTokens, ∀ c ∈ s, ¬ (c = '"' ∨ c = '\\' ∨ c.toNat < 32)) →
        (∀ token ∈ t.model.vocab, reread N token.score = some token.score) →
        r' = .ok (.object w.objects.length) ∧ u.objects = w.objects ++ [t]) := by
    intro t hk hobj hf
    obtain ⟨vo, ps, sp, rfl⟩ := C76_reachable h hk
    have hload : load N v.files path = Tokenizer.fromStr N ((build vo ps sp []).fileContents N) := by
      unfold load
      rw [hf, Option.bind_some]
      exact fromSlice_enc N _
    obtain ⟨_, hall⟩ := C28_loaded N hN vo ps sp [] .pretty
    cases h2 with
    | fromFile hl =>
      rw [hload] at hl
      rename_i t'
      obtain ⟨a1, a2, a3, _⟩ := hall t' hl
      refine ⟨.inr ⟨t', by rw [hobj], by rw [hobj], a1, a2, a3⟩, ?_⟩
      intro hp hr
      have := (C28_reload_partial N hN vo ps sp [] hp hr).2
      rw [this] at hl
      injection hl with hl
      subst hl
      exact ⟨by rw [hobj], by rw [hobj]⟩
    | fromFileRefused hl =>
      rw [hload] at hl
      refine ⟨.inl rfl, ?_⟩
      intro hp hr
      rw [(C28_reload_partial N hN vo ps sp [] hp hr).2] at hl
      cases hl
  cases h1 with
  | save hk =>
    rename_i t
    obtain ⟨f1, f2⟩ := full hk rfl write_self
    exact ⟨t, hk, rfl, .inr f1, fun _ => f2⟩
  | saveRefused hk =>
    rename_i t
    exact ⟨t, hk, rfl, .inl rfl, fun hf => (full hk rfl hf).2⟩
  | saveStopped n hk =>
    rename_i t
    refine ⟨t, hk, rfl, ?_, fun hf => (full hk rfl hf).2⟩
    by_cases hn : n < (Cli.saved N t).length
    · refine .inr (.inl ?_)
      have hc := C70_save N hN t n hn (w.files.write path ((Cli.saved N t).take n)) path write_self
      cases h2 with
      | fromFile hl => rw [load_iff.1 hl] at hc; cases hc
      | fromFileRefused _ => rfl
    · have e : (Cli.saved N t).take n = Cli.saved N t := List.take_of_length_le (by omega)
      exact .inr (full hk rfl ((write_self).trans (by rw [e]))).1

/-! ### A program -/

theorem exTok_loads : Tokenizer.fromStr intNumbers (exTok.toString intNumbers) = some exTok :=
  (C28_reload_partial intNumbers intNumbers_prints _ _ _ _ (by decide +kernel) (fun _ _ => intNumbers_reread _)).1

theorem exTok_loads' : Tokenizer.fromStr intNumbers (exTok.fileContents intNumbers) = some exTok :=
  (C28_reload_partial intNumbers intNumbers_prints _ _ _ _ (by decide +kernel) (fun _ _ => intNumbers_reread _)).2

private theorem ex1 : exTok.encode exNorm "<e>ab\r\naa<s>".toList 0 exRnd = .ok [4, 2, 3, 6, 5] := by decide +kernel

private theorem ex2 : (exTok.addSpecialTokens ["<x>".toList]).decode [4, 2, 3, 6, 5] true = .ok "<e>ab\naa<s>".toList := by
  decide +kernel

private theorem ex3 : (exTok.addSpecialTokens ["<x>".toList]).idToToken 7 = some [60, 120, 62] := by decide +kernel

private theorem ex4 : (exTok.addSpecialTokens ["<x>".toList]).decode [0, 8, 9] true = .error (.outOfBounds 8) := by decide +kernel

private def exBytes (x : Option Token) : Option (Reply Int) := some (.ok (.bytes? x))

private theorem ex5 : exTok.idToToken 7 = none := by decide +kernel

private theorem ex6 {fs : Cli.Files} {path : Str} :
    load intNumbers (fs.write path (Cli.saved intNumbers exTok)) path = some exTok := by
  unfold load
  rw [write_self, Option.bind_some, Cli.saved, fromSlice_enc, exTok_loads']

/-- A program that loads a tokenizer, encodes a text, adds a special token, decodes, saves to a file and loads it again, decodes
an id that does not exist, and pickles its first object over the second. -/
example : ∃ w : World Int, Session exNorm intNumbers ⟨[], fun _ => none⟩
    [(.fromStr (exTok.toString intNumbers), .ok (.object 0)),
     (.encode 0 "<e>ab\r\naa<s>".toList 0, .ok (.ids [4, 2, 3, 6, 5])),
     (.query 0 .getState, .ok (.state (enc (exTok.toString intNumbers)))),
     (.save 0 "v.json".toList, .ok .nothing),
     (.addSpecialTokens 0 ["<x>".toList], .ok .nothing),
     (.query 0 (.decode [4, 2, 3, 6, 5] true), .ok (.text "<e>ab\naa<s>".toList)),
     (.query 0 (.idToToken 7), .ok (.bytes? (some [60, 120, 62]))),
     (.query 0 (.decode [0, 8, 9] true), .error (.coding (.outOfBounds 8))),
     (.fromFile "v.json".toList, .ok (.object 1)),
     (.query 1 (.idToToken 7), .ok (.bytes? none)),
     (.addSpecialTokens 1 ["<y>".toList], .ok .nothing),
     (.setState 1 (enc (exTok.toString intNumbers)), .ok .nothing)] w ∧ w.objects = [exTok.addSpecialTokens ["<x>".toList], exTok] :=
  ⟨_, .cons (.fromStr exTok_loads) <| .cons (.encode exRnd rfl (congrArg (reply .ids) ex1)) <| .cons (.query rfl rfl) <|
    .cons (.save rfl) <| .cons (.addSpecialTokens rfl) <| .cons (.query rfl (congrArg (reply .text) ex2)) <|
    .cons (.query rfl (congrArg exBytes ex3)) <| .cons (.query rfl (congrArg (reply .text) ex4)) <|
    .cons (.fromFile ex6) <| .cons (.query rfl (congrArg exBytes ex5)) <|
    .cons (.addSpecialTokens rfl) <| .cons (.setState rfl ((fromSlice_enc _ _).trans exTok_loads)) .nil, rfl⟩

end Tokengeex

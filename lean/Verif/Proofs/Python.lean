import Verif.Spec.Python
import Verif.Props.Tokenizer
import Verif.Props.Serde
import Verif.Proofs.NBest2
import Verif.Props.Cli
/-
Sequences of calls on Python objects.
-/
namespace Tokengeex
open Spec Python Tokenizer
variable {F : Type}

/-! ### Adding special tokens -/

theorem Tokenizer.addSpecialTokens_append (t : Tokenizer F) (a b : List Str) :
    (t.addSpecialTokens a).addSpecialTokens b = t.addSpecialTokens (a ++ b) := by
  unfold Tokenizer.addSpecialTokens
  rw [List.foldl_append]

theorem Tokenizer.addSpecialTokens_prefix {t : Tokenizer F} (ht : t.WF) (l : List Str) :
    t.specialTokens <+: (t.addSpecialTokens l).specialTokens := by
  induction l generalizing t with
  | nil => exact List.prefix_refl _
  | cons x l ih =>
    refine List.IsPrefix.trans ?_ (ih (ht.addSpecialToken x))
    rw [addSpecialToken_reg ht]
    split
    · exact List.prefix_refl _
    · exact List.prefix_append _ _

theorem Tokenizer.addSpecialTokens_get {t : Tokenizer F} (ht : t.WF) (l : List Str) {i : Nat} {s : Str}
    (h : t.specialTokens[i]? = some s) : (t.addSpecialTokens l).specialTokens[i]? = some s := by
  obtain ⟨r, hr⟩ := addSpecialTokens_prefix ht l
  rw [← hr, List.getElem?_append_left (List.getElem?_eq_some_iff.1 h).1]
  exact h

/-- Decoding that succeeds gives the same text after special tokens were added. -/
theorem Tokenizer.decodeLoop_stable {t u : Tokenizer F} (hm : u.model = t.model)
    (hs : ∀ (i : Nat) s, t.specialTokens[i]? = some s → u.specialTokens[i]? = some s) (flag : Bool) :
    ∀ (n : Nat) (ids : List TokenID) (out s : Str), decodeLoop t flag n ids out = .ok s → decodeLoop u flag n ids out = .ok s := by
  intro n
  induction n with
  | zero => intro ids out s h; cases h
  | succ n ih =>
    intro ids out s h
    unfold decodeLoop at h ⊢
    rw [hm]
    cases hf : ids.findIdx? (fun id => decide (id ≥ t.model.vocabSize)) with
    | none =>
      rw [hf] at h
      simp only [postprocess_eq] at h ⊢
      exact h
    | some i =>
      rw [hf] at h
      simp only [postprocess_eq] at h ⊢
      obtain ⟨x, hx, h⟩ := bind_ok h
      obtain ⟨y, hy, h⟩ := bind_ok h
      obtain ⟨z, hz, h⟩ := bind_ok h
      rw [hx, res_bind_ok, hy, res_bind_ok, hz, res_bind_ok]
      cases hg : t.specialTokens[z]? with
      | none => rw [hg] at h; cases h
      | some sp =>
        rw [hg] at h
        rw [hs z sp hg]
        exact ih _ _ _ h

theorem Tokenizer.decode_stable {t : Tokenizer F} (ht : t.WF) (l : List Str) {ids : List TokenID} {flag : Bool} {s : Str}
    (h : t.decode ids flag = .ok s) : (t.addSpecialTokens l).decode ids flag = .ok s :=
  decodeLoop_stable (addSpecialTokens_model t l) (fun _ _ h => addSpecialTokens_get ht l h) flag _ _ _ _ h

theorem Python.reply_ok {α : Type} {wrap : α → Value F} {x : Res α} {v : Value F} (h : reply wrap x = some (.ok v)) :
    ∃ y, x = .ok y ∧ v = wrap y := by
  cases x with
  | ok y =>
    simp only [reply, Option.some.injEq, Except.ok.injEq] at h
    exact ⟨y, rfl, h.symm⟩
  | error e => cases e <;> simp [reply] at h

/-- Settled answers stay. -/
theorem Python.answer_settled {N : NumText F} {t : Tokenizer F} (ht : t.WF) (l : List Str) {q : Query} {v : Value F}
    (hq : Settled q v) (h : answer N t q = some (.ok v)) : answer N (t.addSpecialTokens l) q = some (.ok v) := by
  have hm := addSpecialTokens_model t l
  have hb : ∀ b, (t.addSpecialTokens l).baseTokenToId b = t.baseTokenToId b := fun b => by unfold Tokenizer.baseTokenToId; rw [hm]
  have hst : ∀ s i, t.specialTokenToId s = some i → (t.addSpecialTokens l).specialTokenToId s = some i := by
    intro s i hs
    unfold Tokenizer.specialTokenToId at hs ⊢
    simp only [Option.map_eq_some_iff] at hs ⊢
    obtain ⟨j, hj, e⟩ := hs
    exact ⟨j, ((ht.addSpecialTokens l).map _ _).2 (addSpecialTokens_get ht l ((ht.map _ _).1 hj)), by rw [hm]; exact e⟩
  have his : ∀ i s, t.idToSpecialToken i = some s → (t.addSpecialTokens l).idToSpecialToken i = some s := by
    intro i s hs
    unfold Tokenizer.idToSpecialToken at hs ⊢
    rw [hm]
    by_cases hc : i < t.model.vocabSize
    · rw [if_pos hc] at hs; cases hs
    · rw [if_neg hc] at hs ⊢; exact addSpecialTokens_get ht l hs
  cases hq with
  | decode =>
    obtain ⟨s', hs', e⟩ := reply_ok h
    simp only [answer]
    rw [decode_stable ht l hs', e]
    rfl
  | tokenToId =>
    rename_i b i
    simp only [answer, Option.some.injEq, Except.ok.injEq, Value.id?.injEq] at h ⊢
    unfold Tokenizer.tokenToId at h ⊢
    rw [hb]
    cases hbt : t.baseTokenToId b with
    | some j => rw [hbt] at h; exact h
    | none =>
      rw [hbt] at h
      simp only at h ⊢
      cases hu : fromUtf8 b with
      | none => rw [hu] at h; exact h
      | some s =>
        rw [hu] at h
        simp only at h ⊢
        cases hsp : t.specialTokenToId s with
        | none => rw [hsp] at h; cases h
        | some j => rw [hsp] at h; rw [hst s j hsp]; exact h
  | baseTokenToId =>
    simp only [answer] at h ⊢
    rw [hb]; exact h
  | specialTokenToId =>
    simp only [answer, Option.some.injEq, Except.ok.injEq, Value.id?.injEq] at h ⊢
    exact hst _ _ h
  | idToToken =>
    rename_i i b
    simp only [answer, Option.some.injEq, Except.ok.injEq, Value.bytes?.injEq] at h ⊢
    unfold Tokenizer.idToToken at h ⊢
    cases hsp : t.idToSpecialToken i with
    | some s => rw [hsp] at h; rw [his i s hsp]; exact h
    | none =>
      rw [hsp] at h
      simp only [Option.map_none] at h
      have hlt : i < t.model.vocabSize := by
        obtain ⟨tok, htok, _⟩ := Option.map_eq_some_iff.1 h
        unfold Tokenizer.idToBaseToken at htok
        rw [ht.model, (C10_lookups t.model.vocab).2.1] at htok
        exact (List.getElem?_eq_some_iff.1 htok).1
      have hn : (t.addSpecialTokens l).idToSpecialToken i = none := by
        unfold Tokenizer.idToSpecialToken; rw [hm, if_pos hlt]
      rw [hn]
      simp only [Option.map_none]
      unfold Tokenizer.idToBaseToken at h ⊢
      rw [hm]; exact h
  | idToBaseToken =>
    simp only [answer, Tokenizer.idToBaseToken] at h ⊢
    rw [hm]; exact h
  | idToSpecialToken =>
    simp only [answer, Option.some.injEq, Except.ok.injEq, Value.text?.injEq] at h ⊢
    exact his _ _ h
  | isSpecial =>
    rename_i i
    simp only [answer, Option.some.injEq, Except.ok.injEq, Value.bool.injEq] at h ⊢
    unfold Tokenizer.isSpecial at h ⊢
    rw [hm]
    by_cases hc : i < t.model.vocabSize
    · rw [if_pos hc] at h; cases h
    · rw [if_neg hc] at h ⊢
      obtain ⟨s, hs⟩ := Option.isSome_iff_exists.1 h
      rw [addSpecialTokens_get ht l hs]; rfl
  | isBase =>
    simp only [answer, Tokenizer.isBase] at h ⊢
    rw [hm]; exact h
  | baseVocabSize =>
    simp only [answer, Tokenizer.baseVocabSize] at h ⊢
    rw [hm]; exact h
  | commonPrefixSearch =>
    simp only [answer] at h ⊢
    rw [hm]; exact h

/-! ### Objects over a session -/

theorem Python.fromSlice_wf {N : NumText F} {b : List UInt8} {t : Tokenizer F} (h : fromSlice N b = some t) :
    ∃ vocab ps specials, t = build vocab ps specials [] := by
  unfold fromSlice at h
  obtain ⟨s, _, h⟩ := Option.bind_eq_some_iff.1 h
  unfold Tokenizer.fromStr at h
  obtain ⟨j, _, h⟩ := Option.bind_eq_some_iff.1 h
  obtain ⟨v, p, sp, _, rfl⟩ := (C29_loader j t).1 h
  exact ⟨v, p, sp, rfl⟩

theorem Python.fromStr_built {N : NumText F} {s : Str} {t : Tokenizer F} (h : Tokenizer.fromStr N s = some t) :
    ∃ vocab ps specials, t = build vocab ps specials [] := by
  unfold Tokenizer.fromStr at h
  obtain ⟨j, _, h⟩ := Option.bind_eq_some_iff.1 h
  obtain ⟨v, p, sp, _, rfl⟩ := (C29_loader j t).1 h
  exact ⟨v, p, sp, rfl⟩

theorem Python.load_built {N : NumText F} {files : Cli.Files} {path : Str} {t : Tokenizer F} (h : load N files path = some t) :
    ∃ vocab ps specials, t = build vocab ps specials [] := by
  unfold load at h
  obtain ⟨b, _, h⟩ := Option.bind_eq_some_iff.1 h
  exact fromSlice_wf h

theorem Python.build_add (vocab : List (ScoredToken F)) (ps : List Processor) (specials l : List Str) :
    (build vocab ps specials []).addSpecialTokens l = build vocab ps (specials ++ l) [] := by
  unfold build Tokenizer.new
  exact addSpecialTokens_append _ _ _

section
variable [ScoreOps F] {norm : UnicodeForm → Str → Str} {N : NumText F}

/-- Every object is a tokenizer the crate's API can build. -/
def Python.World.Built (w : World F) : Prop := ∀ t ∈ w.objects, ∃ vocab ps specials, t = build vocab ps specials []

theorem Python.Step.built {w v : World F} {c : Call F} {r : Reply F} (h : Step norm N w c r v) (hw : w.Built) : v.Built := by
  have hset : ∀ {k : Nat} {u : Tokenizer F}, (∃ vocab ps specials, u = build vocab ps specials []) →
      ∀ t ∈ w.objects.set k u, ∃ vocab ps specials, t = build vocab ps specials [] := by
    intro k u hu t ht
    rcases List.mem_or_eq_of_mem_set ht with ht | rfl
    · exact hw t ht
    · exact hu
  have happ : ∀ {u : Tokenizer F}, (∃ vocab ps specials, u = build vocab ps specials []) →
      ∀ t ∈ w.objects ++ [u], ∃ vocab ps specials, t = build vocab ps specials [] := by
    intro u hu t ht
    rcases List.mem_append.1 ht with ht | ht
    · exact hw t ht
    · rw [List.mem_singleton.1 ht]; exact hu
  cases h with
  | addSpecialTokens hk =>
    obtain ⟨vo, ps, sp, rfl⟩ := hw _ (List.mem_of_getElem? hk)
    exact hset ⟨vo, ps, _, build_add vo ps sp _⟩
  | setState hk hb => exact hset (fromSlice_wf hb)
  | fromStr hs => exact happ (fromStr_built hs)
  | fromFile hs => exact happ (load_built hs)
  | save hk => exact hw
  | saveStopped _ hk => exact hw
  | _ => exact hw

theorem Python.Session.built {w v : World F} {l : List (Call F × Reply F)} (h : Session norm N w l v) : w.Built → v.Built := by
  induction h with
  | nil => exact id
  | cons hs _ ih => exact fun hw => ih (hs.built hw)
  | others files _ ih => exact fun hw => ih hw

/-- An object after one call. -/
theorem Python.Step.object {w v : World F} {c : Call F} {r : Reply F} (h : Step norm N w c r v) {k : Nat} {t : Tokenizer F}
    (hk : w.objects[k]? = some t) (hr : ¬ Replaces k c) : v.objects[k]? = some (t.addSpecialTokens (addedTo k [(c, r)])) := by
  have hlt := (List.getElem?_eq_some_iff.1 hk).1
  cases h with
  | addSpecialTokens hj =>
    rename_i j u l
    by_cases e : j = k
    · subst e
      rw [hk] at hj
      injection hj with hj
      subst hj
      simp only [addedTo, List.flatMap_cons, List.flatMap_nil, List.append_nil, if_true]
      rw [List.getElem?_set_self hlt]
    · simp only [addedTo, List.flatMap_cons, List.flatMap_nil, List.append_nil, if_neg e]
      rw [List.getElem?_set_ne e]
      exact hk
  | setState hj hb =>
    rename_i j u u' b
    have e : ¬ j = k := hr
    simp only
    rw [List.getElem?_set_ne e]
    exact hk
  | fromStr hs => rw [List.getElem?_append_left hlt]; exact hk
  | fromFile hs => rw [List.getElem?_append_left hlt]; exact hk
  | _ => exact hk

theorem Python.Session.object {w v : World F} {l : List (Call F × Reply F)} (h : Session norm N w l v) {k : Nat} :
    ∀ {t : Tokenizer F}, w.objects[k]? = some t → (∀ c ∈ l, ¬ Replaces k c.1) →
      v.objects[k]? = some (t.addSpecialTokens (addedTo k l)) := by
  induction h with
  | nil => intro t hk _; exact hk
  | cons hs _ ih =>
    rename_i w v u c r l _
    intro t hk hr
    have h1 := hs.object hk (hr (c, r) (by simp))
    have h2 := ih h1 (fun x hx => hr x (by simp [hx]))
    rw [h2, addSpecialTokens_append]
    simp [addedTo]
  | others files _ ih => intro t hk hr; exact ih (by exact hk) hr

/-! ### No panics -/

theorem Python.encodeR_error {t : Tokenizer F} (ht : t.WF) {s : Str} {d : F} {rnd : Nat → F} {e : Err}
    (h : t.model.encodeR s d rnd = .error e) : ∃ n, e = .noPath n n := by
  have := C03_encode_outcomes t.model.vocab s d rnd
  rw [← ht.model] at this
  unfold Model.encode at this
  rw [h] at this
  rcases this with ⟨_, h⟩ | h
  · cases h
  · injection h with h; exact ⟨_, h⟩

theorem Python.encodeLoop_error {t : Tokenizer F} (ht : t.WF) (d : F) (rnd : Nat → F) :
    ∀ (fuel : Nat) (s : Str) (k : Nat) (acc : List TokenID) (e : Err), encodeLoop norm t d rnd fuel s k acc = .error e →
      e = .diverge ∨ ∃ n, e = .noPath n n := by
  intro fuel
  induction fuel with
  | zero => intro s k acc e h; injection h with h; exact .inl h.symm
  | succ fuel ih =>
    intro s k acc e' h
    unfold encodeLoop at h
    by_cases hs : s = []
    · subst hs; simp [splitNext] at h
    obtain ⟨p, b, rest, e, hc, hp, h1, h2⟩ := splitNext_spec (specials := t.specialTokens) hs
    rw [e] at h
    simp only at h
    cases hx : t.encodePiece norm (p, b) d (fun j => rnd (k + j)) with
    | ok r => rw [hx, res_bind_ok] at h; exact ih _ _ _ _ h
    | error er =>
      rw [hx] at h
      injection h with h
      subst h
      unfold encodePiece at hx
      cases b with
      | true =>
        obtain ⟨i, hi⟩ := Option.isSome_iff_exists.1 ((ht.isSome_iff p).2 (h1 rfl).mem)
        simp only [if_true] at hx
        rw [hi] at hx
        cases hx
      | false =>
        simp only [Bool.false_eq_true, if_false] at hx
        exact .inr (encodeR_error ht hx)

theorem Python.encode_error {t : Tokenizer F} (ht : t.WF) {d : F} {rnd : Nat → F} {s : Str} {e : Err}
    (h : t.encode norm s d rnd = .error e) : e = .diverge ∨ ∃ n, e = .noPath n n :=
  encodeLoop_error ht d rnd _ _ _ _ _ h

theorem Python.encodeOrdinary_error {t : Tokenizer F} (ht : t.WF) {d : F} {rnd : Nat → F} {s : Str} {e : Err}
    (h : t.encodeOrdinary norm s d rnd = .error e) : ∃ n, e = .noPath n n := by
  unfold Tokenizer.encodeOrdinary at h
  have := C03_encode_outcomes t.model.vocab (t.preprocess norm s) d rnd
  rw [← ht.model, h] at this
  rcases this with ⟨_, h⟩ | h
  · cases h
  · injection h with h; exact ⟨_, h⟩

end

/-- Either every element satisfies `P`, or there is a first one that does not. -/
theorem Python.first_not (P : Nat → Prop) [DecidablePred P] : ∀ l : List Nat,
    (∀ i ∈ l, P i) ∨ ∃ pre id post, l = pre ++ id :: post ∧ (∀ i ∈ pre, P i) ∧ ¬ P id
  | [] => .inl (by simp)
  | a :: l => by
    by_cases ha : P a
    · rcases first_not P l with h | ⟨pre, id, post, rfl, h1, h2⟩
      · exact .inl (by simpa using ⟨ha, h⟩)
      · exact .inr ⟨a :: pre, id, post, rfl, by simpa using ⟨ha, h1⟩, h2⟩
    · exact .inr ⟨[], a, l, rfl, by simp, ha⟩

theorem Python.decode_error {vocab : List (ScoredToken F)} {ps : List Processor} {specials : List Str} {ids : List TokenID}
    {flag : Bool} {e : Err} (h : (build vocab ps specials []).decode ids flag = .error e) : ∃ i ∈ ids, e = .outOfBounds i := by
  obtain ⟨h1, h2⟩ := C20_decode_errors vocab ps specials [] flag
  rcases first_not (fun i => i < (build vocab ps specials []).vocabSize) ids with hk | ⟨pre, id, post, rfl, hp, hid⟩
  · obtain ⟨s, hs⟩ := h2 ids hk
    rw [hs] at h; cases h
  · rw [h1 pre id post hp (by omega)] at h
    injection h with h
    exact ⟨id, by simp, h.symm⟩

theorem Python.reply_error {α : Type} {wrap : α → Value F} {x : Res α} {r : Raised} (h : reply wrap x = some (.error r)) :
    (x = .error .panic ∧ r = .panic) ∨ ∃ e, x = .error e ∧ e ≠ .diverge ∧ r = .coding e := by
  cases x with
  | ok y => simp [reply] at h
  | error e =>
    cases e with
    | panic => simp only [reply, Option.some.injEq, Except.error.injEq] at h; exact .inl ⟨rfl, h.symm⟩
    | diverge => simp [reply] at h
    | noPath a b => simp only [reply, Option.some.injEq, Except.error.injEq] at h; exact .inr ⟨_, rfl, by simp, h.symm⟩
    | outOfBounds a => simp only [reply, Option.some.injEq, Except.error.injEq] at h; exact .inr ⟨_, rfl, by simp, h.symm⟩

/-! ### Loading -/

theorem Python.load_iff {N : NumText F} {files : Cli.Files} {path : Str} {t : Tokenizer F} :
    load N files path = some t ↔ Cli.fromFile N files path = .ok t := by
  unfold load fromSlice Cli.fromFile Cli.readToString
  cases files path with
  | none => simp [unwrap]
  | some b =>
    cases hb : fromUtf8 b with
    | none => simp [unwrap, hb]
    | some s => cases hs : Tokenizer.fromStr N s <;> simp [unwrap, hb, hs]

theorem Python.fromSlice_enc (N : NumText F) (s : Str) : fromSlice N (enc s) = Tokenizer.fromStr N s := by
  unfold fromSlice
  rw [fromUtf8_enc]; rfl

/-! ### Answers -/

theorem Python.answer_tells {N : NumText F} {t : Tokenizer F} {vocab : List (ScoredToken F)} (ht : t.WF)
    (hm : t.model = Model.from_ vocab) {q : Query} {x : Value F} (hq : AboutTokens q) (h : answer N t q = some (.ok x)) :
    Tells vocab t.specialTokens q x := by
  obtain ⟨hsize, hid, _, htok, hnone, _⟩ := C10_lookups vocab
  have hsz : t.model.vocabSize = vocab.length := by rw [hm]; exact hsize
  have hsp : ∀ i, t.isSpecial i = true ↔ vocab.length ≤ i ∧ i < vocab.length + t.specialTokens.length := by
    intro i
    unfold isSpecial
    rw [hsz]
    by_cases h : i < vocab.length
    · rw [if_pos h]; simp; omega
    · rw [if_neg h]; simp; omega
  cases q with
  | decode => exact absurd hq (by simp [AboutTokens])
  | toString => exact absurd hq (by simp [AboutTokens])
  | getState => exact absurd hq (by simp [AboutTokens])
  | vocabSize =>
    simp only [answer, Option.some.injEq, Except.ok.injEq] at h
    subst h
    have : t.vocabSize = vocab.length + t.specialTokens.length := by rw [← hsz]; rfl
    rw [this]; exact .vocabSize
  | baseVocabSize =>
    simp only [answer, Option.some.injEq, Except.ok.injEq] at h
    subst h
    have : t.baseVocabSize = vocab.length := by rw [← hsz]; rfl
    rw [this]; exact .baseVocabSize
  | specialVocabSize =>
    simp only [answer, Option.some.injEq, Except.ok.injEq] at h
    subst h
    exact .specialVocabSize
  | specialTokens =>
    simp only [answer, Option.some.injEq, Except.ok.injEq] at h
    subst h
    exact .specialTokens
  | isBase i =>
    simp only [answer, Option.some.injEq, Except.ok.injEq] at h
    subst h
    exact .isBase (by unfold Tokenizer.isBase; rw [hsz]; simp)
  | isSpecial i =>
    simp only [answer, Option.some.injEq, Except.ok.injEq] at h
    subst h
    exact .isSpecial (hsp i)
  | idToBaseToken i =>
    simp only [answer, Option.some.injEq, Except.ok.injEq] at h
    subst h
    have : t.idToBaseToken i = vocab[i]? := by unfold Tokenizer.idToBaseToken; rw [hm]; exact hid i
    rw [this]; exact .baseToken
  | idToSpecialToken i =>
    simp only [answer, Option.some.injEq, Except.ok.injEq] at h
    subst h
    unfold Tokenizer.idToSpecialToken
    rw [hsz]
    by_cases hi : i < vocab.length
    · rw [if_pos hi]; exact .noSpecialToken hi
    · rw [if_neg hi]
      obtain ⟨j, rfl⟩ := Nat.exists_eq_add_of_le (Nat.le_of_not_lt hi)
      rw [Nat.add_sub_cancel_left]
      exact .specialToken
  | idToToken i =>
    simp only [answer, Option.some.injEq, Except.ok.injEq] at h
    subst h
    unfold Tokenizer.idToToken Tokenizer.idToSpecialToken Tokenizer.idToBaseToken
    rw [hsz]
    by_cases hi : i < vocab.length
    · rw [if_pos hi]
      simp only [Option.map_none]
      rw [hm, hid, List.getElem?_eq_getElem hi, Option.map_some]
      exact .tokenBase (List.getElem?_eq_getElem hi)
    · rw [if_neg hi]
      obtain ⟨j, rfl⟩ := Nat.exists_eq_add_of_le (Nat.le_of_not_lt hi)
      rw [Nat.add_sub_cancel_left]
      have key : Tells (F := F) vocab t.specialTokens (.idToToken (vocab.length + j)) (.bytes? (t.specialTokens[j]?.map enc)) :=
        .tokenSpecial
      cases hj : t.specialTokens[j]? with
      | some s => rw [hj] at key; exact key
      | none =>
        rw [hj] at key
        simp only [Option.map_none] at key ⊢
        rw [hm, hid, List.getElem?_eq_none (by omega)]
        exact key
  | baseTokenToId b =>
    simp only [answer, Option.some.injEq, Except.ok.injEq] at h
    subst h
    have hb : t.baseTokenToId b = (Model.from_ vocab).tokenToId b := by unfold Tokenizer.baseTokenToId; rw [hm]
    rw [hb]
    cases hv : (Model.from_ vocab).tokenToId b with
    | some i => exact .baseId ((htok b i).1 hv)
    | none => exact .noBaseId ((hnone b).1 hv)
  | specialTokenToId s =>
    simp only [answer, Option.some.injEq, Except.ok.injEq] at h
    subst h
    unfold Tokenizer.specialTokenToId
    cases hs : t.specialMap s with
    | some j =>
      rw [Option.map_some, hsz, Nat.add_comm]
      exact .specialId ((ht.map s j).1 hs)
    | none =>
      rw [Option.map_none]
      refine .noSpecialId ?_
      intro hmem
      rw [← ht.isSome_iff, hs] at hmem
      cases hmem
  | tokenToId b =>
    simp only [answer, Option.some.injEq, Except.ok.injEq] at h
    subst h
    unfold Tokenizer.tokenToId
    have hb : t.baseTokenToId b = (Model.from_ vocab).tokenToId b := by unfold Tokenizer.baseTokenToId; rw [hm]
    rw [hb]
    cases hv : (Model.from_ vocab).tokenToId b with
    | some i => exact .idBase ((htok b i).1 hv)
    | none =>
      have hno := (hnone b).1 hv
      simp only
      cases hu : fromUtf8 b with
      | none =>
        refine .noId hno ?_
        intro s _ e
        rw [← e, fromUtf8_enc] at hu; cases hu
      | some s =>
        have e := fromUtf8_iff.1 hu
        subst e
        simp only
        unfold Tokenizer.specialTokenToId
        cases hs : t.specialMap s with
        | some j =>
          rw [Option.map_some, hsz, Nat.add_comm]
          exact .idSpecial hno ((ht.map s j).1 hs)
        | none =>
          rw [Option.map_none]
          refine .noId hno ?_
          intro s' hmem e
          have : s' = s := by
            have := congrArg fromUtf8 e
            rw [fromUtf8_enc, fromUtf8_enc] at this
            injection this
          subst this
          rw [← ht.isSome_iff, hs] at hmem
          cases hmem
  | commonPrefixSearch s =>
    simp only [answer, Option.some.injEq, Except.ok.injEq] at h
    subst h
    rw [hm]
    obtain ⟨h1, h2⟩ := C08_common_prefix_search vocab (enc s)
    exact .prefixes h1 h2

end Tokengeex

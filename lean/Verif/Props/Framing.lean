import Verif.Props.EncodePieces
import Verif.Props.Python
import Verif.Spec.Framing
/-
C115: texts between special tokens, and the example of the Python package.
-/
namespace Tokengeex
open Spec ScoreOps Tokenizer
variable {F : Type} [ScoreOps F]

theorem encode_empty (norm : UnicodeForm → Str → Str) (t : Tokenizer F) (dropout : F) (rnd : Nat → F) :
    t.encode norm [] dropout rnd = .ok [] := rfl

/-- **C115**, encoding.  Suppose no special token is empty or the beginning of another.  A text that contains no first character of
a special token, put between two special tokens, is encoded as the id of the first, the ids that `encode_ordinary` gives for the
text, and the id of the second, and fails exactly as `encode_ordinary` does; with dropout, for the same random numbers. -/
theorem C115_framed (norm : UnicodeForm → Str → Str) (hnorm : ∀ f, norm f [] = []) (vocab : List (ScoredToken F))
    (ps : List Processor) (specials : List Str) (ops : List (Op F)) (dropout : F) (rnd : Nat → F) (opening text closing : Str)
    (i j : Nat) :
    let t := build vocab ps specials ops
    [] ∉ t.specialTokens → PrefixFree t.specialTokens → PlainText t.specialTokens text →
    t.specialTokenToId opening = some i → t.specialTokenToId closing = some j →
    t.encode norm (opening ++ text ++ closing) dropout rnd =
      match t.encodeOrdinary norm text dropout rnd with
      | .ok ids => .ok ([i] ++ ids ++ [j])
      | .error e => .error e := by
  intro t hne hpf hplain hi hj
  have hn := (C13_registry vocab ps specials ops).2.1
  have hwf : t.WF := wf_build vocab ps specials ops
  have hmem : ∀ {s id}, t.specialTokenToId s = some id → s ∈ t.specialTokens := by
    intro s id h
    unfold specialTokenToId at h
    obtain ⟨k, hk, _⟩ := Option.map_eq_some_iff.1 h
    exact (hwf.isSome_iff s).1 (by rw [hk]; rfl)
  have h1 := C107_piecewise norm hnorm vocab ps specials ops dropout rnd [] opening (text ++ closing) i hne hi
    (firstMatch_of_prefixFree hpf hn (hmem hi) _) (fun k hk => by simp at hk)
  have h2 := fun rnd => C107_piecewise norm hnorm vocab ps specials ops dropout rnd text closing [] j hne hj
    (firstMatch_of_prefixFree hpf hn (hmem hj) _)
    (fun k hk => by rw [List.append_assoc]; exact noMatch_of_plain hne hplain _ k hk)
  change t.encode norm ([] ++ opening ++ (text ++ closing)) dropout rnd = _ at h1
  simp only [List.append_nil] at h2
  have h0 : t.encodeOrdinaryR norm [] dropout rnd = .ok ([], 0) := by
    unfold encodeOrdinaryR
    rw [preprocess_nil hnorm]
    rfl
  rw [List.append_assoc, show opening ++ (text ++ closing) = [] ++ opening ++ (text ++ closing) from rfl, h1,
    show (build vocab ps specials ops).encodeOrdinaryR norm [] dropout rnd = .ok ([], 0) from h0]
  simp only [res_bind_ok, Nat.zero_add, h2]
  rw [show t.encodeOrdinary norm text dropout rnd = (t.encodeOrdinaryR norm text dropout rnd).map Prod.fst from rfl]
  change (((t.encodeOrdinaryR norm text dropout rnd) >>= _) >>= _) = _
  cases t.encodeOrdinaryR norm text dropout rnd with
  | error e => rfl
  | ok a =>
    simp only [Except.map, res_bind_ok]
    rw [encode_empty]
    simp only [res_bind_ok]
    show Except.ok _ = Except.ok _
    simp

theorem ordinary_spells (norm : UnicodeForm → Str → Str) (vocab : List (ScoredToken F)) (ps : List Processor)
    (specials : List Str) (ops : List (Op F)) (text : Str) (dropout : F) (rnd : Nat → F) (ids : List Nat)
    (h : (build vocab ps specials ops).encodeOrdinary norm text dropout rnd = .ok ids) :
    (∀ i ∈ ids, i < (givenBase vocab ops).length) ∧
      Spells (givenBase vocab ops) ids (enc (ps.foldl (fun s p => p.preprocess norm s) text)) := by
  obtain ⟨hm, hp, _⟩ := build_spec vocab ps specials ops
  have : (Model.from_ (givenBase vocab ops)).encode (ps.foldl (fun s p => p.preprocess norm s) text) dropout rnd = .ok ids := by
    rw [← h]
    unfold encodeOrdinary preprocess
    rw [hm, hp]
  exact C01_encode_lossless _ _ _ _ _ this

omit [ScoreOps F] in
theorem runBytes_spells {vocab : List (ScoredToken F)} {ids : List Nat} {bs : List UInt8} (h : Spells vocab ids bs) :
    runBytes vocab ids = bs := by
  obtain ⟨toks, h1, h2⟩ := h
  subst h2
  unfold runBytes
  induction ids generalizing toks with
  | nil =>
    cases toks with
    | nil => rfl
    | cons _ _ => simp at h1
  | cons i ids ih =>
    cases toks with
    | nil => simp at h1
    | cons a toks =>
      simp only [List.map_cons, List.cons.injEq] at h1
      rw [List.flatMap_cons, ih toks h1.2, h1.1]
      simp

/-- **C115**, decoding.  The ids that `encode_ordinary` gave for a text, between the ids of two special tokens, are decoded to the
text as the processors left it: between the two special tokens if these are included, and alone if not. -/
theorem C115_unframed (norm : UnicodeForm → Str → Str) (vocab : List (ScoredToken F))
    (ps : List Processor) (specials : List Str) (ops : List (Op F)) (dropout : F) (rnd : Nat → F) (opening text closing : Str)
    (i j : Nat) (ids : List Nat) :
    let t := build vocab ps specials ops
    t.specialTokenToId opening = some i → t.specialTokenToId closing = some j →
    t.encodeOrdinary norm text dropout rnd = .ok ids →
    t.decode ([i] ++ ids ++ [j]) true = .ok (opening ++ ps.foldl (fun s p => p.preprocess norm s) text ++ closing) ∧
    t.decode ([i] ++ ids ++ [j]) false = .ok (ps.foldl (fun s p => p.preprocess norm s) text) := by
  intro t hi hj h
  obtain ⟨h1, h2⟩ := ordinary_spells norm vocab ps specials ops text dropout rnd ids h
  have hreg := (C13_registry vocab ps specials ops).2.2
  have key := fun flag => C19_decode_runs vocab ps specials ops [] [((i, opening), ids), ((j, closing), [])] flag (by simp) (by
    intro x hx
    simp only [List.mem_cons, List.not_mem_nil, or_false] at hx
    rcases hx with rfl | rfl
    · exact ⟨(hreg _ _).1 hi, h1⟩
    · exact ⟨(hreg _ _).1 hj, by simp⟩)
  have hnil : lossy (runBytes (givenBase vocab ops) []) = [] := by
    exact lossy_enc []
  simp only [List.flatMap_cons, List.flatMap_nil, runBytes_spells h2, lossy_enc, hnil, List.nil_append, List.append_nil] at key
  refine ⟨?_, ?_⟩
  · have := key true
    simp only [if_true] at this
    rw [List.append_assoc]
    simpa [t] using this
  · have := key false
    rw [List.append_assoc]
    simpa [t] using this

/-- **C115**, `encode_ordinary`.  It never gives the id of a special token, whatever the text. -/
theorem C115_ordinary (norm : UnicodeForm → Str → Str) (vocab : List (ScoredToken F)) (ps : List Processor)
    (specials : List Str) (ops : List (Op F)) (dropout : F) (rnd : Nat → F) (text sp : Str) (i : Nat) (ids : List Nat) :
    let t := build vocab ps specials ops
    t.encodeOrdinary norm text dropout rnd = .ok ids → t.specialTokenToId sp = some i → i ∉ ids := by
  intro t h hi hmem
  have h1 := (ordinary_spells norm vocab ps specials ops text dropout rnd ids h).1 i hmem
  have hs := ((C13_registry vocab ps specials ops).2.2 sp i).1 hi
  have hm := (build_spec vocab ps specials ops).1
  have : (build vocab ps specials ops).model.vocabSize = (givenBase vocab ops).length := by rw [hm]; rfl
  unfold idToSpecialToken at hs
  rw [if_pos (by rw [this]; exact h1)] at hs
  cases hs

/-- Non-vacuity: a framed text in which a special token is not found, because the text is encoded as ordinary text. -/
example : chatTok.encode exNorm "<s>abb<e>".toList 0 exRnd = .ok ([4] ++ [2, 1] ++ [3]) ∧
    chatTok.decode ([4] ++ [2, 1] ++ [3]) true = .ok "<s>abb<e>".toList ∧
    chatTok.decode ([4] ++ [2, 1] ++ [3]) false = .ok "abb".toList ∧ 4 ∉ [2, 1] := by
  have ho : chatTok.encodeOrdinary exNorm "abb".toList 0 exRnd = .ok [2, 1] := by decide +kernel
  have h1 := C115_framed exNorm (fun _ => rfl) [⟨[97], -1, true⟩, ⟨[98], -1, true⟩, ⟨[97, 98], -1, true⟩] []
    [['<', 'e', '>'], ['<', 's', '>']] [] 0 exRnd "<s>".toList "abb".toList "<e>".toList 4 3 (by decide) (by unfold PrefixFree; decide)
    (by unfold PlainText; decide) (by decide) (by decide)
  rw [show (build _ _ _ _).encodeOrdinary exNorm "abb".toList 0 exRnd = _ from ho] at h1
  have h2 := C115_unframed exNorm [⟨[97], -1, true⟩, ⟨[98], -1, true⟩, ⟨[97, 98], -1, true⟩] []
    [['<', 'e', '>'], ['<', 's', '>']] [] 0 exRnd "<s>".toList "abb".toList "<e>".toList 4 3 [2, 1] (by decide) (by decide) ho
  exact ⟨h1, h2.1, h2.2, C115_ordinary exNorm _ [] _ [] 0 exRnd "abb".toList "<s>".toList 4 [2, 1] ho (by decide)⟩

/-! ### The example of the Python package -/

section
open Python
variable {norm : UnicodeForm → Str → Str} {N : NumText F}

theorem Python.Session.uncons {w u : World F} {c : Call F} {r : Reply F} {l : List (Call F × Reply F)}
    (h : Session norm N w ((c, r) :: l) u) :
    ∃ files v, Step norm N { w with files := files } c r v ∧ Session norm N v l u := by
  generalize hm : (c, r) :: l = m at h
  induction h with
  | nil => cases hm
  | cons hs hl =>
    cases hm
    exact ⟨_, _, hs, hl⟩
  | others files _ ih =>
    obtain ⟨f, v, h1, h2⟩ := ih hm
    exact ⟨f, v, h1, h2⟩

theorem Python.Session.append {w v u : World F} {l l' : List (Call F × Reply F)} (h : Session norm N w l v)
    (h' : Session norm N v l' u) : Session norm N w (l ++ l') u := by
  induction h with
  | nil => exact h'
  | cons hs _ ih => exact .cons hs (ih h')
  | others f _ ih => exact .others f (ih h')

theorem Python.Session.nil_objects {w u : World F} (h : Session norm N w [] u) : u.objects = w.objects := by
  generalize hm : ([] : List (Call F × Reply F)) = m at h
  induction h with
  | nil => rfl
  | cons _ _ => cases hm
  | others _ _ ih => exact ih hm

omit [ScoreOps F] in
theorem givenBase_nil (vocab : List (ScoredToken F)) : givenBase vocab [] = vocab := by simp [givenBase]

omit [ScoreOps F] in
theorem addSpecialTokens_fresh : ∀ (l : List Str) {t : Tokenizer F}, t.WF → (t.specialTokens ++ l).Nodup →
    (t.addSpecialTokens l).specialTokens = t.specialTokens ++ l := by
  intro l
  induction l with
  | nil => intro t _ _; simp [addSpecialTokens]
  | cons s l ih =>
    intro t ht hn
    have hs : s ∉ t.specialTokens := fun h => (List.nodup_append.1 hn).2.2 s h s (by simp) rfl
    have h1 : (t.addSpecialToken s).specialTokens = t.specialTokens ++ [s] := by
      rw [addSpecialToken_reg ht, if_neg hs]
    show ((t.addSpecialToken s).addSpecialTokens l).specialTokens = _
    rw [ih (ht.addSpecialToken s) (by rw [h1]; simpa using hn), h1]
    simp

theorem example_encodes (vocab : List (ScoredToken F)) (ps : List Processor) (specials : List Str) (dropout : F)
    (text : Str) (hp : ps.foldl (fun s p => p.preprocess norm s) text = text) (hc : BytesCovered vocab (enc text)) (rnd : Nat → F) :
    ∃ ids, (build vocab ps specials []).encodeOrdinary norm text dropout rnd = .ok ids ∧ (text ≠ [] → ids ≠ []) := by
  obtain ⟨hm, hps, _⟩ := build_spec vocab ps specials []
  obtain ⟨ids, h⟩ := C04_dropout_total vocab text dropout rnd hc
  have : (build vocab ps specials []).encodeOrdinary norm text dropout rnd = .ok ids := by
    rw [← h]
    unfold encodeOrdinary preprocess
    rw [hm, hps, hp, givenBase_nil]
  refine ⟨ids, this, ?_⟩
  rintro hne rfl
  have hs := (C01_encode_lossless vocab text dropout rnd [] h).2
  have h1 : runBytes vocab [] = enc text := runBytes_spells hs
  have h2 : lossy (enc text) = [] := by rw [← h1]; exact lossy_enc []
  rw [lossy_enc] at h2
  exact hne h2

/-- **C115**, the example of the Python package (bindings/python/example.py:28-66).  Take any object of any program, whose
vocabulary has a token for each byte of the two sentences, whose special tokens begin with `<` and are not among the four new ones
nor the beginning of one of them or of each other, or the other way round, and whose processors leave the sentences as they are.
Whatever other programs do to the files meanwhile, all assertions of the example hold: `add_special_tokens` returns; `<s>` and `</s>`
have ids; `encode` of the framed sentence begins with the one and ends with the other; `encode_ordinary` of it does neither; the
vocabulary has grown by four; and `encode_batch` of the framed sentences returns ids that `decode_batch` turns back into them, and
without special tokens into the two sentences. -/
theorem C115_example (hnorm : ∀ f, norm f [] = []) {files : Cli.Files} {past : List (Call F × Reply F)} {w v u : World F}
    (h : Session norm N ⟨[], files⟩ past w) {k : Nat} {t : Tokenizer F} (hk : w.objects[k]? = some t) (d : F)
    (hbytes : BytesCovered t.model.vocab (enc (framed sentence1 ++ framed sentence2)))
    (hspecial : ∀ s ∈ t.specialTokens, s.head? = some '<') (hprefix : PrefixFree (t.specialTokens ++ exampleTokens))
    (hnew : ∀ s ∈ exampleTokens, s ∉ t.specialTokens)
    (hproc : ∀ s ∈ [sentence1, sentence2, framed sentence1], t.processors.foldl (fun s p => p.preprocess norm s) s = s)
    {r1 r2 r3 r4 r5 r6 r7 r8 : Reply F}
    (hs : Session norm N w
      [(.query k .vocabSize, r1),
       (.addSpecialTokens k exampleTokens, r2),
       (.query k (.specialTokenToId "<s>".toList), r3),
       (.encode k (framed sentence1) d, r4),
       (.query k (.specialTokenToId "</s>".toList), r5),
       (.encodeOrdinary k (framed sentence1) d, r6),
       (.query k .vocabSize, r7),
       (.encodeBatch k [framed sentence1, framed sentence2] d, r8)] v) :
    ∃ n i j ids ordinary batch, r1 = .ok (.size n) ∧ r2 = .ok .nothing ∧ r3 = .ok (.id? (some i)) ∧ r4 = .ok (.ids ids) ∧
      r5 = .ok (.id? (some j)) ∧ r6 = .ok (.ids ordinary) ∧ r7 = .ok (.size (n + 4)) ∧ r8 = .ok (.batch batch) ∧
      ids.head? = some i ∧ ids.getLast? = some j ∧
      (∃ x y, ordinary.head? = some x ∧ x ≠ i ∧ ordinary.getLast? = some y ∧ y ≠ j) ∧
      ∀ {r9 r10}, Session norm N v [(.decodeBatch k batch true, r9), (.decodeBatch k batch false, r10)] u →
        r9 = .ok (.texts [framed sentence1, framed sentence2]) ∧ r10 = .ok (.texts [sentence1, sentence2]) := by
  obtain ⟨vo, ps, sp, rfl⟩ := C76_reachable h hk
  obtain ⟨hm, hps, -⟩ := build_spec vo ps sp []
  have hvo : (build vo ps sp []).model.vocab = vo := by rw [hm, givenBase_nil]; rfl
  have hwf := wf_build vo ps sp []
  rw [hps] at hproc
  rw [hvo] at hbytes
  have hnd : ((build vo ps sp []).specialTokens ++ exampleTokens).Nodup := by
    rw [List.nodup_append]
    refine ⟨(C13_registry vo ps sp []).2.1, by decide, ?_⟩
    rintro a ha b hb rfl
    exact hnew a hb ha
  have hreg : (build vo ps (sp ++ exampleTokens) []).specialTokens = (build vo ps sp []).specialTokens ++ exampleTokens := by
    rw [← build_add]
    exact addSpecialTokens_fresh _ hwf hnd
  have hne : [] ∉ (build vo ps (sp ++ exampleTokens) []).specialTokens := by
    rw [hreg, List.mem_append]
    rintro (h | h)
    · have := hspecial _ h; cases this
    · revert h; decide
  have hpf : PrefixFree (build vo ps (sp ++ exampleTokens) []).specialTokens := by rw [hreg]; exact hprefix
  have hhead : ∀ s ∈ (build vo ps (sp ++ exampleTokens) []).specialTokens, s.head? = some '<' := by
    rw [hreg]
    intro s hs
    rcases List.mem_append.1 hs with h | h
    · exact hspecial s h
    · exact (by decide : ∀ s ∈ exampleTokens, s.head? = some '<') s h
  have hplain : ∀ text, '<' ∉ text → PlainText (build vo ps (sp ++ exampleTokens) []).specialTokens text := by
    intro text ht q hq c hc
    rw [hhead q hq] at hc
    cases hc
    exact ht
  have hid : ∀ s ∈ exampleTokens, ∃ i, (build vo ps (sp ++ exampleTokens) []).specialTokenToId s = some i := by
    intro s hs
    have := ((wf_build vo ps (sp ++ exampleTokens) []).isSome_iff s).2 (by rw [hreg]; simp [hs])
    obtain ⟨i, hi⟩ := Option.isSome_iff_exists.1 this
    exact ⟨_, by unfold specialTokenToId; rw [hi]; rfl⟩
  obtain ⟨i, hi⟩ := hid "<s>".toList (by decide)
  obtain ⟨j, hj⟩ := hid "</s>".toList (by decide)
  have hsize : (build vo ps (sp ++ exampleTokens) []).vocabSize = (build vo ps sp []).vocabSize + 4 := by
    unfold Tokenizer.vocabSize
    rw [hreg, (build_spec vo ps (sp ++ exampleTokens) []).1, hm, List.length_append]
    show _ + (_ + 4) = _
    omega
  -- the pieces of the framed sentences are encoded
  have hcov : ∀ text, (∀ b ∈ enc text, b ∈ enc (framed sentence1 ++ framed sentence2)) → BytesCovered vo (enc text) :=
    fun text ht b hb => hbytes b (ht b hb)
  have henc : ∀ text, '<' ∉ text → (∀ b ∈ enc text, b ∈ enc (framed sentence1 ++ framed sentence2)) →
      ps.foldl (fun s p => p.preprocess norm s) text = text → ∀ rnd, ∃ a,
        (build vo ps (sp ++ exampleTokens) []).encode norm (framed text) d rnd = .ok ([i] ++ a ++ [j]) ∧
        (build vo ps (sp ++ exampleTokens) []).decode ([i] ++ a ++ [j]) true = .ok (framed text) ∧
        (build vo ps (sp ++ exampleTokens) []).decode ([i] ++ a ++ [j]) false = .ok text := by
    intro text h1 h2 h3 rnd
    obtain ⟨a, ha, _⟩ := example_encodes (norm := norm) vo ps (sp ++ exampleTokens) d text h3 (hcov text h2) rnd
    have h4 := C115_framed norm hnorm vo ps (sp ++ exampleTokens) [] d rnd "<s>".toList text "</s>".toList i j hne hpf
      (hplain text h1) hi hj
    simp only [ha] at h4
    have h5 := C115_unframed norm vo ps (sp ++ exampleTokens) [] d rnd "<s>".toList text "</s>".toList i j a hi hj ha
    rw [h3] at h5
    exact ⟨a, h4, h5.1, h5.2⟩
  have he1 := henc sentence1 (by decide) (by decide +kernel) (hproc _ (by simp))
  have he2 := henc sentence2 (by decide) (by decide +kernel) (hproc _ (by simp))
  have hord := fun rnd => example_encodes (norm := norm) vo ps (sp ++ exampleTokens) d (framed sentence1) (hproc _ (by simp))
    (hcov _ (by decide +kernel)) rnd
  -- the calls
  obtain ⟨f1, w1, s1, hs⟩ := hs.uncons
  obtain ⟨f2, w2, s2, hs⟩ := hs.uncons
  obtain ⟨f3, w3, s3, hs⟩ := hs.uncons
  obtain ⟨f4, w4, s4, hs⟩ := hs.uncons
  obtain ⟨f5, w5, s5, hs⟩ := hs.uncons
  obtain ⟨f6, w6, s6, hs⟩ := hs.uncons
  obtain ⟨f7, w7, s7, hs⟩ := hs.uncons
  obtain ⟨f8, w8, s8, hs⟩ := hs.uncons
  have hv := hs.nil_objects
  have get : ∀ {w : World F} {files : Cli.Files} {a b : Tokenizer F}, w.objects[k]? = some a →
      ({ w with files := files } : World F).objects[k]? = some b → b = a := by
    intro w files a b h1 h2
    exact Option.some.inj (h2.symm.trans h1)
  cases s1 with
  | query k1 a1 =>
  obtain rfl := get hk k1
  cases s2 with
  | addSpecialTokens k2 =>
  obtain rfl := get hk k2
  have hk' : (w.objects.set k ((build vo ps sp []).addSpecialTokens exampleTokens))[k]? =
      some (build vo ps (sp ++ exampleTokens) []) := by
    rw [List.getElem?_set_self (List.getElem?_eq_some_iff.1 hk).1, build_add]
  cases s3 with
  | query k3 a3 =>
  obtain rfl := get (w := ⟨_, f2⟩) hk' k3
  cases s4 with
  | encode rnd4 k4 a4 =>
  obtain rfl := get (w := ⟨_, f2⟩) hk' k4
  cases s5 with
  | query k5 a5 =>
  obtain rfl := get (w := ⟨_, f2⟩) hk' k5
  cases s6 with
  | encodeOrdinary rnd6 k6 a6 =>
  obtain rfl := get (w := ⟨_, f2⟩) hk' k6
  cases s7 with
  | query k7 a7 =>
  obtain rfl := get (w := ⟨_, f2⟩) hk' k7
  cases s8 with
  | encodeBatch k8 b8 a8 =>
  rename_i x8
  obtain rfl := get (w := ⟨_, f2⟩) hk' k8
  simp only [answer, Option.some.injEq] at a1 a3 a5 a7
  rw [hi] at a3
  rw [hj] at a5
  rw [hsize] at a7
  obtain ⟨a, e4, _, _⟩ := he1 rnd4
  rw [e4] at a4
  obtain ⟨o, e6, hne6⟩ := hord rnd6
  rw [e6] at a6
  have hne6 := hne6 (by decide)
  obtain ⟨vs, hvs, hlen, hget⟩ : ∃ vs, x8 = Except.ok vs ∧ vs.length = [framed sentence1, framed sentence2].length ∧
      ∀ (i : Nat) s v, [framed sentence1, framed sentence2][i]? = some s → vs[i]? = some v → ∃ rnd,
        (build vo ps (sp ++ exampleTokens) []).encode norm s d rnd = .ok v := by
    rcases C23_encode_batch _ _ _ _ _ b8 with h | ⟨e, _, s, hs, rnd, he⟩
    · exact h
    · exfalso
      simp only [List.mem_cons, List.not_mem_nil, or_false] at hs
      rcases hs with rfl | rfl
      · obtain ⟨a, h1, _⟩ := he1 rnd; rw [h1] at he; cases he
      · obtain ⟨a, h1, _⟩ := he2 rnd; rw [h1] at he; cases he
  subst hvs
  rcases vs with _ | ⟨v1, _ | ⟨v2, _ | ⟨_, _⟩⟩⟩
  · cases hlen
  · cases hlen
  · obtain ⟨rnd1, g1⟩ := hget 0 _ v1 rfl rfl
    obtain ⟨rnd2, g2⟩ := hget 1 _ v2 rfl rfl
    obtain ⟨b1, e1, d1, d1'⟩ := he1 rnd1
    obtain ⟨b2, e2, d2, d2'⟩ := he2 rnd2
    rw [e1] at g1
    rw [e2] at g2
    cases g1
    cases g2
    refine ⟨_, i, j, [i] ++ a ++ [j], o, _, a1.symm, rfl, a3.symm, (Option.some.inj a4).symm, a5.symm, (Option.some.inj a6).symm,
      a7.symm, (Option.some.inj a8).symm, by simp, List.getLast?_concat, ?_, ?_⟩
    · have hnot : ∀ sp' i', (build vo ps (sp ++ exampleTokens) []).specialTokenToId sp' = some i' → i' ∉ o := fun sp' i' hi' =>
        C115_ordinary norm vo ps (sp ++ exampleTokens) [] d rnd6 (framed sentence1) sp' i' o e6 hi'
      refine ⟨o.head hne6, o.getLast hne6, List.head?_eq_some_head hne6, ?_, List.getLast?_eq_some_getLast hne6, ?_⟩
      · intro e
        exact hnot _ _ hi (e ▸ List.head_mem hne6)
      · intro e
        exact hnot _ _ hj (e ▸ List.getLast_mem hne6)
    · intro r9 r10 ht
      obtain ⟨f9, w9, s9, ht⟩ := ht.uncons
      obtain ⟨f10, w10, s10, ht⟩ := ht.uncons
      have hk9 : v.objects[k]? = some (build vo ps (sp ++ exampleTokens) []) := by rw [hv]; exact hk'
      cases s9 with
      | decodeBatch k9 b9 a9 =>
      obtain rfl := get hk9 k9
      cases s10 with
      | decodeBatch k10 b10 a10 =>
      obtain rfl := get hk9 k10
      have c9 := (C23_decode_batch _ _ _ _ b9).1 [framed sentence1, framed sentence2] (by simp only [List.map_cons, List.map_nil, d1, d2])
      have c10 := (C23_decode_batch _ _ _ _ b10).1 [sentence1, sentence2] (by simp only [List.map_cons, List.map_nil, d1', d2'])
      subst c9
      subst c10
      exact ⟨(Option.some.inj a9).symm, (Option.some.inj a10).symm⟩
  · simp at hlen

omit [ScoreOps F] in
theorem Python.reply_total {α : Type} (wrap : α → Value F) {x : Res α} (h : x ≠ .error .diverge) : ∃ r, reply wrap x = some r := by
  cases x with
  | ok y => exact ⟨_, rfl⟩
  | error e => cases e <;> first | exact ⟨_, rfl⟩ | exact absurd rfl h

/-- **C115**, the calls return.  If no special token is empty, the calls of the example return, whatever the vocabulary and the
processors are. -/
theorem C115_returns {files : Cli.Files} {past : List (Call F × Reply F)} {w : World F}
    (h : Session norm N ⟨[], files⟩ past w) {k : Nat} {t : Tokenizer F} (hk : w.objects[k]? = some t) (d : F)
    (hne : [] ∉ t.specialTokens) :
    ∃ r1 r2 r3 r4 r5 r6 r7 r8 v, Session norm N w
      [(.query k .vocabSize, r1),
       (.addSpecialTokens k exampleTokens, r2),
       (.query k (.specialTokenToId "<s>".toList), r3),
       (.encode k (framed sentence1) d, r4),
       (.query k (.specialTokenToId "</s>".toList), r5),
       (.encodeOrdinary k (framed sentence1) d, r6),
       (.query k .vocabSize, r7),
       (.encodeBatch k [framed sentence1, framed sentence2] d, r8)] v ∧
      ∀ batch flag, ∃ r9, Session norm N v [(.decodeBatch k batch flag, r9)] v := by
  obtain ⟨vo, ps, sp, rfl⟩ := C76_reachable h hk
  have hk' : (w.objects.set k ((build vo ps sp []).addSpecialTokens exampleTokens))[k]? =
      some (build vo ps (sp ++ exampleTokens) []) := by
    rw [List.getElem?_set_self (List.getElem?_eq_some_iff.1 hk).1, build_add]
  have hne' : [] ∉ givenSpecial (sp ++ exampleTokens) ([] : List (Op F)) := by
    intro hc
    have h1 := ((build_spec vo ps sp []).2.2.1 []).2
    simp only [givenSpecial, List.flatMap_nil, List.append_nil, List.mem_append] at hc h1
    rcases hc with hc | hc
    · exact hne (h1 hc)
    · revert hc; decide
  have henc := fun s rnd => (C17_terminates_partial norm vo ps (sp ++ exampleTokens) [] hne' s d rnd).1
  have hord : ∀ s rnd, (build vo ps (sp ++ exampleTokens) []).encodeOrdinary norm s d rnd ≠ .error .diverge := by
    intro s rnd
    have hm := (wf_build vo ps (sp ++ exampleTokens) []).model
    unfold encodeOrdinary
    rw [hm]
    rcases C03_encode_outcomes (build vo ps (sp ++ exampleTokens) []).model.vocab
      ((build vo ps (sp ++ exampleTokens) []).preprocess norm s) d rnd with ⟨ids, h⟩ | h <;> rw [h] <;> simp
  obtain ⟨r4, h4⟩ := reply_total .ids (henc (framed sentence1) fun _ => d)
  obtain ⟨r6, h6⟩ := reply_total .ids (hord (framed sentence1) fun _ => d)
  obtain ⟨x8, hx8⟩ : ∃ x, (build vo ps (sp ++ exampleTokens) []).EncodeBatch norm [framed sentence1, framed sentence2] d x := by
    obtain ⟨s, h1, h2⟩ := Batch.finishes (β := List TokenID)
      (R := fun i x => ∃ s rnd, [framed sentence1, framed sentence2][i]? = some s ∧
        (build vo ps (sp ++ exampleTokens) []).encode norm s d rnd = x ∧ x ≠ .error .diverge)
      (n := 2) (fun i hi => ⟨_, [framed sentence1, framed sentence2][i], fun _ => d, List.getElem?_eq_getElem hi, rfl, henc _ _⟩)
      Batch.inv_init
    exact ⟨_, s, h1, h2, rfl⟩
  obtain ⟨r8, h8⟩ := reply_total .batch (x := x8) (by
    rcases C23_encode_batch _ _ _ _ _ hx8 with ⟨vs, rfl, _⟩ | ⟨e, rfl, s, _, rnd, he⟩
    · simp
    · intro hc; cases hc; exact henc s rnd he)
  refine ⟨_, _, _, r4, _, r6, _, r8, _, .cons (.query hk rfl) <| .cons (.addSpecialTokens hk) <| .cons (.query hk' rfl) <|
    .cons (.encode _ hk' h4) <| .cons (.query hk' rfl) <| .cons (.encodeOrdinary _ hk' h6) <| .cons (.query hk' rfl) <|
    .cons (.encodeBatch hk' hx8 h8) .nil, ?_⟩
  intro batch flag
  obtain ⟨x, hx⟩ := decode_batch_has_outcome (build vo ps (sp ++ exampleTokens) []) batch flag
  obtain ⟨r9, h9⟩ := reply_total .texts (x := x) (by
    rcases Batch.outcome_cases hx with ⟨vs, rfl, _⟩ | ⟨e, i, rfl, _, ids, _, he⟩
    · simp
    · intro hc
      cases hc
      obtain ⟨i, _, hi⟩ := decode_error he
      cases hi)
  exact ⟨r9, .cons (.decodeBatch hk' hx h9) .nil⟩

/-- Non-vacuity: the tokenizer with a token for every byte of the sentences and a token `Hello`, processors and a special token. -/
def helloTok : Tokenizer Int :=
  build (⟨enc "Hello".toList, -1, true⟩ :: (enc (framed sentence1 ++ framed sentence2)).dedup.map fun b => ⟨[b], -2, true⟩) [.crlf]
    ["<|CODE|>".toList] []

theorem helloTok_loads : Tokenizer.fromStr intNumbers (helloTok.toString intNumbers) = some helloTok :=
  (C28_reload_partial intNumbers intNumbers_prints _ _ _ _ (by decide +kernel) (fun _ _ => intNumbers_reread _)).1

/-- Non-vacuity: a program that loads this tokenizer and runs the example. -/
example : ∃ n i j ids ordinary batch, ∃ v : World Int, Session exNorm intNumbers ⟨[], fun _ => none⟩
    ([(.fromStr (helloTok.toString intNumbers), .ok (.object 0))] ++
      [(.query 0 .vocabSize, .ok (.size n)),
       (.addSpecialTokens 0 exampleTokens, .ok .nothing),
       (.query 0 (.specialTokenToId "<s>".toList), .ok (.id? (some i))),
       (.encode 0 (framed sentence1) 0, .ok (.ids ids)),
       (.query 0 (.specialTokenToId "</s>".toList), .ok (.id? (some j))),
       (.encodeOrdinary 0 (framed sentence1) 0, .ok (.ids ordinary)),
       (.query 0 .vocabSize, .ok (.size (n + 4))),
       (.encodeBatch 0 [framed sentence1, framed sentence2] 0, .ok (.batch batch))] ++
      [(.decodeBatch 0 batch true, .ok (.texts [framed sentence1, framed sentence2])),
       (.decodeBatch 0 batch false, .ok (.texts [sentence1, sentence2]))]) v := by
  have h : Session exNorm intNumbers ⟨[], fun _ => none⟩ [(.fromStr (helloTok.toString intNumbers), .ok (.object 0))]
      ⟨[helloTok], fun _ => none⟩ := .cons (.fromStr helloTok_loads) .nil
  obtain ⟨r1, r2, r3, r4, r5, r6, r7, r8, v, hs, hd⟩ := C115_returns h (k := 0) rfl 0 (by decide +kernel)
  have key := fun u => C115_example (u := u) (fun _ => rfl) h (k := 0) rfl 0 (by unfold BytesCovered; decide +kernel) (by decide +kernel)
    (by unfold PrefixFree; decide +kernel) (by decide +kernel) (by decide +kernel) hs
  obtain ⟨n, i, j, ids, o, batch, rfl, rfl, rfl, rfl, rfl, rfl, rfl, rfl, _⟩ := key v
  obtain ⟨n', i', j', ids', o', batch', _, _, _, _, _, _, _, e8, _, _, _, hlast⟩ := key v
  cases e8
  obtain ⟨r9, h9⟩ := hd batch true
  obtain ⟨r10, h10⟩ := hd batch false
  obtain ⟨rfl, rfl⟩ := hlast (h9.append h10)
  exact ⟨n, i, j, ids, o, batch, v, (h.append hs).append (h9.append h10)⟩
end

end Tokengeex

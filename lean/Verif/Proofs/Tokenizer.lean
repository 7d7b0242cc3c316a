import Verif.Proofs.Split
import Verif.Proofs.Encode
import Verif.Proofs.Utf8
import Verif.Props.Model
import Verif.Spec.Tokenizer
/-
The tokenizer: registry invariant, encoding piece by piece, decoding run by run.
-/
namespace Tokengeex
open Spec Model

namespace Tokenizer
variable {F : Type}

/-- Invariant of every tokenizer reachable through the API. -/
structure WF (t : Tokenizer F) : Prop where
  model : t.model = from_ t.model.vocab
  map : ∀ s i, t.specialMap s = some i ↔ t.specialTokens[i]? = some s

theorem WF.addSpecialToken {t : Tokenizer F} (h : t.WF) (s : Str) : (t.addSpecialToken s).WF := by
  unfold Tokenizer.addSpecialToken
  by_cases hs : (t.specialMap s).isSome = true
  · rw [if_pos hs]; exact h
  · rw [if_neg hs]
    have hnone : t.specialMap s = none := by
      cases e : t.specialMap s with
      | none => rfl
      | some i => simp [e] at hs
    refine ⟨h.model, ?_⟩
    intro x i
    simp only
    by_cases hx : x = s
    · subst hx
      rw [if_pos rfl]
      constructor
      · intro e
        simp only [Option.some.injEq] at e
        subst e
        simp
      · intro e
        rw [List.getElem?_append] at e
        split at e
        · rw [← h.map, hnone] at e; simp at e
        · rename_i hlt
          have : i - t.specialTokens.length = 0 := by
            have := (List.getElem?_eq_some_iff.1 e).1
            simpa using this
          simp only [Option.some.injEq]; omega
    · rw [if_neg hx, h.map]
      constructor
      · intro e
        rw [List.getElem?_append_left (List.getElem?_eq_some_iff.1 e).1]; exact e
      · intro e
        rw [List.getElem?_append] at e
        split at e
        · exact e
        · have h1 := (List.getElem?_eq_some_iff.1 e).1
          have h2 : i - t.specialTokens.length = 0 := by simpa using h1
          rw [h2] at e
          simp at e
          exact absurd e.symm hx

theorem WF.addSpecialTokens {t : Tokenizer F} (h : t.WF) (l : List Str) : (t.addSpecialTokens l).WF := by
  unfold Tokenizer.addSpecialTokens
  induction l generalizing t with
  | nil => exact h
  | cons s l ih => exact ih (h.addSpecialToken s)

theorem WF.addBaseTokens {t : Tokenizer F} (h : t.WF) (l : List (ScoredToken F)) : (t.addBaseTokens l).WF := by
  refine ⟨?_, h.map⟩
  show t.model.addTokens l = from_ (t.model.addTokens l).vocab
  rw [addTokens_vocab, from_append, ← h.model]

theorem WF.new (vocab : List (ScoredToken F)) (ps : List Processor) (specials : List Str) :
    (Tokenizer.new (from_ vocab) ps specials).WF := by
  unfold Tokenizer.new
  apply WF.addSpecialTokens
  exact ⟨rfl, by simp⟩

theorem WF.apply {t : Tokenizer F} (h : t.WF) (op : Op F) : (t.apply op).WF := by
  cases op with
  | addSpecial l => exact h.addSpecialTokens l
  | addBase l => exact h.addBaseTokens l

theorem wf_build (vocab : List (ScoredToken F)) (ps : List Processor) (specials : List Str) (ops : List (Op F)) :
    (build vocab ps specials ops).WF := by
  unfold build
  have : ∀ (ops : List (Op F)) (t : Tokenizer F), t.WF → (ops.foldl Tokenizer.apply t).WF := by
    intro ops
    induction ops with
    | nil => intro t h; exact h
    | cons op ops ih => intro t h; exact ih _ (h.apply op)
  exact this ops _ (WF.new vocab ps specials)

theorem WF.isSome_iff {t : Tokenizer F} (h : t.WF) (s : Str) : (t.specialMap s).isSome = true ↔ s ∈ t.specialTokens := by
  rw [Option.isSome_iff_exists, List.mem_iff_getElem?]
  constructor
  · rintro ⟨i, hi⟩; exact ⟨i, (h.map s i).1 hi⟩
  · rintro ⟨i, hi⟩; exact ⟨i, (h.map s i).2 hi⟩

theorem WF.nodup {t : Tokenizer F} (h : t.WF) : t.specialTokens.Nodup := by
  rw [List.Nodup, List.pairwise_iff_getElem]
  intro i j hi hj hij e
  have h1 := (h.map _ _).2 (List.getElem?_eq_getElem hi)
  have h2 := (h.map _ _).2 (List.getElem?_eq_getElem hj)
  rw [e, h2] at h1
  simp only [Option.some.injEq] at h1
  omega

/-! ### Processors do not change decoded text -/

theorem postprocess_eq (t : Tokenizer F) (s : Str) : t.postprocess s = s := by
  unfold Tokenizer.postprocess
  generalize t.processors.reverse = l
  induction l generalizing s with
  | nil => rfl
  | cons p l ih =>
    rw [List.foldl_cons]
    cases p <;> exact ih s

/-! ### Encoding piece by piece -/
section
variable [ScoreOps F]

/-- `encode` on a list of pieces. -/
def runPieces (norm : UnicodeForm → Str → Str) (t : Tokenizer F) (dropout : F) (rnd : Nat → F) :
    List (Str × Bool) → Nat → List Nat → Res (List Nat)
  | [], _, ids => .ok ids
  | item :: items, k, ids => do
    let r ← t.encodePiece norm item dropout (fun j => rnd (k + j))
    runPieces norm t dropout rnd items (k + r.2) (ids ++ r.1)

theorem encodeLoop_eq (norm : UnicodeForm → Str → Str) (t : Tokenizer F) (dropout : F) (rnd : Nat → F) :
    ∀ (fuel : Nat) (input : Str) (pieces : List (Str × Bool)) (k : Nat) (ids : List Nat),
      splitAll t.specialTokens fuel input = some pieces →
      encodeLoop norm t dropout rnd fuel input k ids = runPieces norm t dropout rnd pieces k ids := by
  intro fuel
  induction fuel with
  | zero => intro input pieces k ids h; simp [splitAll] at h
  | succ fuel ih =>
    intro input pieces k ids h
    unfold splitAll at h
    unfold encodeLoop
    cases hs : splitNext t.specialTokens input with
    | none =>
      rw [hs] at h
      simp only [Option.some.injEq] at h
      subst h; rfl
    | some x =>
      obtain ⟨item, rest⟩ := x
      rw [hs] at h
      simp only [Option.map_eq_some_iff] at h
      obtain ⟨pieces', h1, rfl⟩ := h
      simp only [runPieces]
      cases t.encodePiece norm item dropout (fun j => rnd (k + j)) with
      | error e => rfl
      | ok r => simp only [res_bind_ok]; exact ih _ _ _ _ h1

/-- A successful `encode` ran over a complete split. -/
theorem encodeLoop_split (norm : UnicodeForm → Str → Str) (t : Tokenizer F) (dropout : F) (rnd : Nat → F) :
    ∀ (fuel : Nat) (input : Str) (k : Nat) (acc ids : List Nat),
      encodeLoop norm t dropout rnd fuel input k acc = .ok ids →
      ∃ pieces, splitAll t.specialTokens fuel input = some pieces := by
  intro fuel
  induction fuel with
  | zero => intro input k acc ids h; simp [encodeLoop] at h
  | succ fuel ih =>
    intro input k acc ids h
    unfold encodeLoop at h
    unfold splitAll
    cases hs : splitNext t.specialTokens input with
    | none => exact ⟨[], rfl⟩
    | some x =>
      obtain ⟨item, rest⟩ := x
      rw [hs] at h
      simp only at h ⊢
      cases he : t.encodePiece norm item dropout (fun j => rnd (k + j)) with
      | error e => rw [he] at h; simp at h
      | ok r =>
        rw [he] at h
        simp only [res_bind_ok] at h
        obtain ⟨pieces, hp⟩ := ih _ _ _ _ h
        exact ⟨item :: pieces, by rw [hp]; rfl⟩

/-- If the empty string is registered and no split exists, the loop runs out of any fuel. -/
theorem encodeLoop_diverge (norm : UnicodeForm → Str → Str) {t : Tokenizer F} (ht : t.WF) (he : [] ∈ t.specialTokens)
    (dropout : F) (rnd : Nat → F) :
    ∀ (fuel : Nat) (input : Str) (k : Nat) (acc : List Nat), splitAll t.specialTokens fuel input = none →
      encodeLoop norm t dropout rnd fuel input k acc = .error .diverge := by
  intro fuel
  induction fuel with
  | zero => intro input k acc _; rfl
  | succ fuel ih =>
    intro input k acc h
    by_cases hi : input = []
    · subst hi; simp [splitAll, splitNext] at h
    · obtain ⟨p, b, rest, e, hc, hp, h1, h2⟩ := splitNext_spec (specials := t.specialTokens) hi
      have hb : b = true := by
        cases b with
        | true => rfl
        | false =>
          exfalso
          have hp' : p ≠ [] := by
            rcases hp with hp | ⟨hb, _⟩
            · exact hp
            · simp at hb
          exact (h2 rfl).1 0 (List.length_pos_iff.2 hp') [] he (List.nil_prefix)
      subst hb
      have hmem := (h1 rfl).mem
      unfold encodeLoop
      rw [e]
      simp only [splitAll, e, Option.map_eq_none_iff] at h
      obtain ⟨i, hi⟩ := Option.isSome_iff_exists.1 ((ht.isSome_iff p).2 hmem)
      have : t.encodePiece norm (p, true) dropout (fun j => rnd (k + j)) = .ok ([t.model.vocabSize + i], 0) := by
        simp [encodePiece, hi]
      simp only [this, res_bind_ok]
      exact ih _ _ _ h

/-- With non-empty special tokens, `encode` runs over the pieces of the split. -/
theorem encodeFuel_eq (norm : UnicodeForm → Str → Str) (t : Tokenizer F) (hne : [] ∉ t.specialTokens) (dropout : F)
    (rnd : Nat → F) (s : Str) (fuel : Nat) (hf : s.length < fuel) :
    ∃ pieces, IsSplit t.specialTokens s pieces ∧
      t.encodeFuel norm fuel s dropout rnd = runPieces norm t dropout rnd pieces 0 [] := by
  obtain ⟨pieces, h1, h2⟩ := splitAll_spec hne fuel s hf
  exact ⟨pieces, h2, encodeLoop_eq norm t dropout rnd _ _ _ _ _ h1⟩

/-- The ids `part` are a correct encoding of one piece. -/
def PieceIds (norm : UnicodeForm → Str → Str) (t : Tokenizer F) (dropout : F) (piece : Str × Bool)
    (part : List Nat) : Prop :=
  if piece.2 = true then ∃ i, t.specialTokens[i]? = some piece.1 ∧ part = [t.model.vocabSize + i]
  else ∃ rnd', t.model.encode (t.preprocess norm piece.1) dropout rnd' = .ok part

theorem runPieces_ok {norm : UnicodeForm → Str → Str} {t : Tokenizer F} (ht : t.WF) {dropout : F} {rnd : Nat → F} :
    ∀ (pieces : List (Str × Bool)) (k : Nat) (acc ids : List Nat),
      runPieces norm t dropout rnd pieces k acc = .ok ids →
      ∃ parts : List (List Nat), ids = acc ++ parts.flatten ∧ parts.length = pieces.length ∧
        ∀ pr ∈ pieces.zip parts, PieceIds norm t dropout pr.1 pr.2 := by
  intro pieces
  induction pieces with
  | nil =>
    intro k acc ids h
    simp only [runPieces, Except.ok.injEq] at h
    exact ⟨[], by simp [h], rfl, by simp⟩
  | cons item pieces ih =>
    intro k acc ids h
    unfold runPieces at h
    cases he : t.encodePiece norm item dropout (fun j => rnd (k + j)) with
    | error e => rw [he] at h; simp at h
    | ok r =>
      rw [he] at h
      simp only [res_bind_ok] at h
      obtain ⟨parts, h1, h2, h3⟩ := ih _ _ _ h
      refine ⟨r.1 :: parts, by rw [h1]; simp, by simp [h2], ?_⟩
      intro pr hpr
      rw [List.zip_cons_cons] at hpr
      rcases List.mem_cons.1 hpr with rfl | hpr
      · unfold PieceIds
        unfold encodePiece at he
        by_cases hb : item.2 = true
        · rw [if_pos hb] at he ⊢
          cases hm : t.specialMap item.1 with
          | none => rw [hm] at he; simp at he
          | some i =>
            rw [hm] at he
            simp only [Except.ok.injEq] at he
            exact ⟨i, (ht.map _ _).1 hm, by rw [← he]⟩
        · rw [if_neg hb] at he ⊢
          exact ⟨_, by unfold Model.encode; rw [he]; rfl⟩
      · exact h3 pr hpr

end

/-! ### Decoding run by run -/

/-- Text of a run of base ids. -/
def runText (t : Tokenizer F) (ids : List Nat) : Str :=
  lossy (ids.flatMap (fun i => match t.model.vocab[i]? with | some tok => tok.value | none => []))

theorem WF.decode_base {t : Tokenizer F} (h : t.WF) {ids : List Nat} (hb : ∀ i ∈ ids, i < t.model.vocabSize) :
    t.model.decode ids = .ok (t.runText ids) := by
  obtain ⟨_, h2, h3⟩ := C11_decode t.model.vocab
  rw [← h.model] at h2
  obtain ⟨bs, hs⟩ := h3 ids hb
  rw [h2 ids bs hs]
  congr 1
  unfold runText
  congr 1
  obtain ⟨toks, e1, e2⟩ := hs
  rw [← e2]
  clear e2 hb
  induction ids generalizing toks with
  | nil =>
    have : toks = [] := by simpa using e1.symm
    subst this; rfl
  | cons i ids ih =>
    cases toks with
    | nil => simp at e1
    | cons tok toks =>
      simp only [List.map_cons, List.cons.injEq] at e1
      rw [List.flatMap_cons, ← ih toks e1.2, e1.1]
      simp

theorem decodeLoop_base {t : Tokenizer F} (h : t.WF) (flag : Bool) {ids : List Nat}
    (hb : ∀ i ∈ ids, i < t.model.vocabSize) (fuel : Nat) (out : Str) :
    decodeLoop t flag (fuel + 1) ids out = .ok (out ++ t.runText ids) := by
  unfold decodeLoop
  have : ids.findIdx? (fun id => decide (id ≥ t.model.vocabSize)) = none := by
    rw [List.findIdx?_eq_none_iff]
    intro x hx
    have := hb x hx
    simp; omega
  rw [this, h.decode_base hb]
  simp only [res_bind_ok, res_pure, postprocess_eq]

theorem decodeLoop_special {t : Tokenizer F} (h : t.WF) (flag : Bool) {xs ys : List Nat} {id : Nat}
    (hb : ∀ i ∈ xs, i < t.model.vocabSize) (hid : t.model.vocabSize ≤ id) (fuel : Nat) (out : Str) :
    decodeLoop t flag (fuel + 1) (xs ++ id :: ys) out =
      match t.specialTokens[id - t.model.vocabSize]? with
      | none => .error (.outOfBounds id)
      | some sp => decodeLoop t flag fuel ys (out ++ t.runText xs ++ (if flag then sp else [])) := by
  rw [decodeLoop]
  have : (xs ++ id :: ys).findIdx? (fun id => decide (id ≥ t.model.vocabSize)) = some xs.length := by
    rw [List.findIdx?_append]
    have h1 : xs.findIdx? (fun id => decide (id ≥ t.model.vocabSize)) = none := by
      rw [List.findIdx?_eq_none_iff]
      intro x hx
      have := hb x hx
      simp; omega
    rw [h1, List.findIdx?_cons]
    simp [hid]
  rw [this]
  simp only [List.take_left, h.decode_base hb, res_bind_ok]
  have h2 : idx (xs ++ id :: ys) xs.length = .ok id := idx_of_getElem? (by simp)
  rw [h2]
  simp only [res_bind_ok, subU, hid, if_true]
  have h3 : (xs ++ id :: ys).drop (xs.length + 1) = ys := by
    rw [List.drop_append]; simp
  rw [h3]
  cases t.specialTokens[id - t.model.vocabSize]? with
  | none => rfl
  | some sp => simp only [postprocess_eq]

/-- Every id sequence is a run of base ids, possibly followed by a special (or unknown) id and the rest. -/
theorem base_run_split (n : Nat) (ids : List Nat) :
    (∀ i ∈ ids, i < n) ∨ ∃ xs id ys, ids = xs ++ id :: ys ∧ (∀ i ∈ xs, i < n) ∧ n ≤ id := by
  induction ids with
  | nil => exact .inl (by simp)
  | cons a ids ih =>
    by_cases ha : a < n
    · rcases ih with h | ⟨xs, id, ys, e, h1, h2⟩
      · exact .inl (by intro i hi; rcases List.mem_cons.1 hi with rfl | hi; exact ha; exact h i hi)
      · refine .inr ⟨a :: xs, id, ys, by rw [e]; rfl, ?_, h2⟩
        intro i hi; rcases List.mem_cons.1 hi with rfl | hi; exact ha; exact h1 i hi
    · exact .inr ⟨[], a, ids, rfl, by simp, by omega⟩

/-- The decoded text, or the first unknown id. -/
theorem decodeLoop_out {t : Tokenizer F} (h : t.WF) (flag : Bool) : ∀ (n : Nat) (ids : List Nat), ids.length ≤ n →
    ∀ fuel, ids.length < fuel → ∀ out, decodeLoop t flag fuel ids out =
      (t.decode ids flag).map (fun s => out ++ s) := by
  intro n
  induction n with
  | zero =>
    intro ids hn fuel hf out
    have : ids = [] := List.length_eq_zero_iff.1 (by omega)
    subst this
    cases fuel with
    | zero => simp at hf
    | succ fuel =>
      rw [decodeLoop_base h flag (by simp), Tokenizer.decode, decodeLoop_base h flag (by simp)]
      simp [Except.map]
  | succ n ih =>
    intro ids hn fuel hf out
    cases fuel with
    | zero => simp at hf
    | succ fuel =>
      unfold Tokenizer.decode
      rcases base_run_split t.model.vocabSize ids with hb | ⟨xs, id, ys, e, h1, h2⟩
      · rw [decodeLoop_base h flag hb, decodeLoop_base h flag hb]; simp [Except.map]
      · subst e
        simp only [List.length_append, List.length_cons] at hn hf ⊢
        rw [decodeLoop_special h flag h1 h2, decodeLoop_special h flag h1 h2]
        cases t.specialTokens[id - t.model.vocabSize]? with
        | none => rfl
        | some sp =>
          simp only
          rw [ih ys (by omega) fuel (by omega), ih ys (by omega) _ (by omega)]
          cases t.decode ys flag with
          | error e => rfl
          | ok r => simp [Except.map]

theorem decode_base' {t : Tokenizer F} (h : t.WF) (flag : Bool) {ids : List Nat}
    (hb : ∀ i ∈ ids, i < t.model.vocabSize) : t.decode ids flag = .ok (t.runText ids) := by
  unfold Tokenizer.decode
  rw [decodeLoop_base h flag hb]; simp

theorem decode_special {t : Tokenizer F} (h : t.WF) (flag : Bool) {xs ys : List Nat} {id : Nat}
    (hb : ∀ i ∈ xs, i < t.model.vocabSize) (hid : t.model.vocabSize ≤ id) :
    t.decode (xs ++ id :: ys) flag =
      match t.specialTokens[id - t.model.vocabSize]? with
      | none => .error (.outOfBounds id)
      | some sp => (t.decode ys flag).map (fun s => t.runText xs ++ (if flag then sp else []) ++ s) := by
  conv => lhs; unfold Tokenizer.decode
  rw [decodeLoop_special h flag hb hid]
  cases t.specialTokens[id - t.model.vocabSize]? with
  | none => rfl
  | some sp =>
    simp only [List.nil_append]
    rw [decodeLoop_out h flag ys.length ys (Nat.le_refl _) _ (by simp; omega)]

end Tokenizer
end Tokengeex

namespace Tokengeex
open Spec Model
namespace Tokenizer
variable {F : Type}

theorem runText_nil (t : Tokenizer F) : t.runText [] = [] := rfl

theorem decode_base_append {t : Tokenizer F} (h : t.WF) (flag : Bool) {xs ids : List Nat}
    (hb : ∀ i ∈ xs, i < t.model.vocabSize) (hids : ids = [] ∨ ∃ id ys, ids = id :: ys ∧ t.model.vocabSize ≤ id) :
    t.decode (xs ++ ids) flag = (t.decode ids flag).map (fun s => t.runText xs ++ s) := by
  rcases hids with rfl | ⟨id, ys, rfl, hid⟩
  · rw [List.append_nil, decode_base' h flag hb, decode_base' h flag (by simp)]
    simp [Except.map, runText_nil]
  · have h0 := decode_special h flag (xs := []) (ys := ys) (by simp) hid
    rw [List.nil_append] at h0
    rw [decode_special h flag hb hid, h0]
    cases t.specialTokens[id - t.model.vocabSize]? with
    | none => rfl
    | some sp =>
      simp only [runText_nil, List.nil_append]
      cases t.decode ys flag with
      | error e => rfl
      | ok r => simp [Except.map]

/-- Text of a piece after processing. -/
def pieceOut (norm : UnicodeForm → Str → Str) (t : Tokenizer F) (flag : Bool) (piece : Str × Bool) : Str :=
  if piece.2 then (if flag then piece.1 else []) else t.preprocess norm piece.1

theorem encode_base [ScoreOps F] {t : Tokenizer F} (h : t.WF) {s : Str} {d : F} {rnd : Nat → F} {ids : List Nat}
    (he : t.model.encode s d rnd = .ok ids) : (∀ i ∈ ids, i < t.model.vocabSize) ∧ t.runText ids = s := by
  have he' := he
  rw [h.model] at he'
  have hb := (C01_encode_lossless _ _ _ _ _ he').1
  have hb' : ∀ i ∈ ids, i < t.model.vocabSize := hb
  refine ⟨hb', ?_⟩
  have h1 := h.decode_base hb'
  have h2 := C02_decode_encode _ _ _ _ _ he'
  rw [← h.model, h1] at h2
  simpa using h2

theorem decode_parts [ScoreOps F] {norm : UnicodeForm → Str → Str} {t : Tokenizer F} (h : t.WF) {dropout : F} (flag : Bool) :
    ∀ (pieces : List (Str × Bool)) (parts : List (List Nat)), parts.length = pieces.length →
      (∀ pr ∈ pieces.zip parts, PieceIds norm t dropout pr.1 pr.2) →
      (∀ pre p q post, pieces ≠ pre ++ (p, false) :: (q, false) :: post) →
      t.decode parts.flatten flag = .ok (pieces.flatMap (pieceOut norm t flag)) := by
  intro pieces
  induction pieces with
  | nil =>
    intro parts hl _ _
    have : parts = [] := List.length_eq_zero_iff.1 hl
    subst this
    exact decode_base' h flag (by simp)
  | cons piece pieces ih =>
    intro parts hl hp ha
    cases parts with
    | nil => simp at hl
    | cons part parts =>
      have hl' : parts.length = pieces.length := by simpa using hl
      have ih' := ih parts hl' (fun pr hpr => hp pr (by rw [List.zip_cons_cons]; exact List.mem_cons_of_mem _ hpr))
        (fun pre p q post e => ha (piece :: pre) p q post (by rw [e]; rfl))
      have hpart := hp (piece, part) (by rw [List.zip_cons_cons]; exact List.mem_cons_self)
      obtain ⟨p, b⟩ := piece
      unfold PieceIds at hpart
      rw [List.flatten_cons, List.flatMap_cons]
      cases b with
      | true =>
        simp only [if_true] at hpart
        obtain ⟨i, hi, rfl⟩ := hpart
        have := decode_special h flag (xs := []) (ys := parts.flatten) (id := t.model.vocabSize + i) (by simp) (by omega)
        rw [List.nil_append] at this
        rw [List.singleton_append, this, show t.model.vocabSize + i - t.model.vocabSize = i by omega, hi, ih']
        simp only [Except.map, runText_nil, List.nil_append, pieceOut, if_true]
      | false =>
        simp only [Bool.false_eq_true, if_false] at hpart
        obtain ⟨rnd', he⟩ := hpart
        obtain ⟨hb, hr⟩ := encode_base h he
        rw [decode_base_append h flag hb, ih']
        · simp only [Except.map, hr, pieceOut, Bool.false_eq_true, if_false]
        · cases pieces with
          | nil =>
            have : parts = [] := List.length_eq_zero_iff.1 (by simpa using hl')
            subst this
            exact .inl rfl
          | cons q pieces =>
            right
            obtain ⟨q, c⟩ := q
            cases c with
            | false => exact absurd rfl (ha [] p q pieces)
            | true =>
              cases parts with
              | nil => simp at hl'
              | cons part' parts =>
                have := hp ((q, true), part') (by simp [List.zip_cons_cons])
                unfold PieceIds at this
                simp only [if_true] at this
                obtain ⟨i, _, rfl⟩ := this
                exact ⟨t.model.vocabSize + i, parts.flatten, by simp, by omega⟩

/-- What is behind every successful `encode`. -/
theorem encode_parts [ScoreOps F] {norm : UnicodeForm → Str → Str} {t : Tokenizer F} (h : t.WF) {s : Str} {dropout : F}
    {rnd : Nat → F} {ids : List Nat} (he : t.encode norm s dropout rnd = .ok ids) :
    ∃ pieces parts, IsSplit t.specialTokens s pieces ∧ ids = parts.flatten ∧ parts.length = pieces.length ∧
      ∀ pr ∈ pieces.zip parts, PieceIds norm t dropout pr.1 pr.2 := by
  unfold Tokenizer.encode encodeFuel at he
  obtain ⟨pieces, hp⟩ := encodeLoop_split norm t dropout rnd _ _ _ _ _ he
  rw [encodeLoop_eq norm t dropout rnd _ _ _ _ _ hp] at he
  obtain ⟨parts, h1, h2, h3⟩ := runPieces_ok h pieces 0 [] ids he
  exact ⟨pieces, parts, splitAll_isSplit _ _ _ hp, by simpa using h1, h2, h3⟩

/-! ### What the registry holds after a history -/

theorem addSpecialToken_model (t : Tokenizer F) (s : Str) : (t.addSpecialToken s).model = t.model := by
  unfold addSpecialToken; split <;> rfl

theorem addSpecialTokens_model (t : Tokenizer F) (l : List Str) : (t.addSpecialTokens l).model = t.model := by
  unfold addSpecialTokens
  induction l generalizing t with
  | nil => rfl
  | cons s l ih => rw [List.foldl_cons, ih, addSpecialToken_model]

theorem addSpecialToken_processors (t : Tokenizer F) (s : Str) : (t.addSpecialToken s).processors = t.processors := by
  unfold addSpecialToken; split <;> rfl

theorem addSpecialTokens_processors (t : Tokenizer F) (l : List Str) :
    (t.addSpecialTokens l).processors = t.processors := by
  unfold addSpecialTokens
  induction l generalizing t with
  | nil => rfl
  | cons s l ih => rw [List.foldl_cons, ih, addSpecialToken_processors]

theorem firstOccurrences_snoc {all reg : List Str} (h : FirstOccurrences all reg) (s : Str) :
    FirstOccurrences (all ++ [s]) (if s ∈ reg then reg else reg ++ [s]) := by
  obtain ⟨h1, h2⟩ := h
  have hidx : ∀ a, a ∈ reg → (all ++ [s]).idxOf a = all.idxOf a := by
    intro a ha
    rw [List.idxOf_append, if_pos ((h1 a).1 ha)]
  have hpw : reg.Pairwise (fun a b => (all ++ [s]).idxOf a < (all ++ [s]).idxOf b) := by
    refine List.Pairwise.imp_of_mem ?_ h2
    intro a b ha hb hab
    rw [hidx a ha, hidx b hb]; exact hab
  by_cases hs : s ∈ reg
  · rw [if_pos hs]
    refine ⟨?_, hpw⟩
    intro x
    rw [h1, List.mem_append]
    constructor
    · exact .inl
    · rintro (hx | hx)
      · exact hx
      · simp only [List.mem_singleton] at hx; subst hx; exact (h1 x).1 hs
  · rw [if_neg hs]
    refine ⟨?_, ?_⟩
    · intro x; rw [List.mem_append, List.mem_append, h1]
    · rw [List.pairwise_append]
      refine ⟨hpw, by simp, ?_⟩
      intro a ha b hb
      simp only [List.mem_singleton] at hb
      subst hb
      have hb' : b ∉ all := fun h => hs ((h1 b).2 h)
      rw [hidx a ha, List.idxOf_append, if_neg hb']
      have := List.idxOf_lt_length_of_mem ((h1 a).1 ha)
      omega

theorem addSpecialToken_reg {t : Tokenizer F} (h : t.WF) (s : Str) :
    (t.addSpecialToken s).specialTokens = if s ∈ t.specialTokens then t.specialTokens else t.specialTokens ++ [s] := by
  unfold addSpecialToken
  have := h.isSome_iff s
  by_cases hs : s ∈ t.specialTokens
  · rw [if_pos (this.2 hs), if_pos hs]
  · rw [if_neg (fun h => hs (this.1 h)), if_neg hs]

theorem addSpecialTokens_reg {t : Tokenizer F} (h : t.WF) {all : List Str} (hr : FirstOccurrences all t.specialTokens)
    (l : List Str) : FirstOccurrences (all ++ l) (t.addSpecialTokens l).specialTokens := by
  unfold addSpecialTokens
  induction l generalizing t all with
  | nil => simpa using hr
  | cons s l ih =>
    rw [List.foldl_cons]
    have := ih (h.addSpecialToken s) (all := all ++ [s])
      (by rw [addSpecialToken_reg h]; exact firstOccurrences_snoc hr s)
    simpa using this

theorem build_spec (vocab : List (ScoredToken F)) (ps : List Processor) (specials : List Str) (ops : List (Op F)) :
    (build vocab ps specials ops).model = from_ (givenBase vocab ops) ∧
    (build vocab ps specials ops).processors = ps ∧
    FirstOccurrences (givenSpecial specials ops) (build vocab ps specials ops).specialTokens := by
  have key : ∀ (ops : List (Op F)) (t : Tokenizer F) (v : List (ScoredToken F)) (all : List Str), t.WF →
      t.model = from_ v → t.processors = ps → FirstOccurrences all t.specialTokens →
      (ops.foldl Tokenizer.apply t).model = from_ (givenBase v ops) ∧
      (ops.foldl Tokenizer.apply t).processors = ps ∧
      FirstOccurrences (givenSpecial all ops) (ops.foldl Tokenizer.apply t).specialTokens := by
    intro ops
    induction ops with
    | nil => intro t v all _ hm hp hr; simpa [givenBase, givenSpecial] using ⟨hm, hp, hr⟩
    | cons op ops ih =>
      intro t v all h hm hp hr
      cases op with
      | addSpecial l =>
        have := ih (t.addSpecialTokens l) v (all ++ l) (h.addSpecialTokens l)
          (by rw [addSpecialTokens_model]; exact hm) (by rw [addSpecialTokens_processors]; exact hp)
          (addSpecialTokens_reg h hr l)
        simpa [givenBase, givenSpecial, apply] using this
      | addBase l =>
        have := ih (t.addBaseTokens l) (v ++ l) all (h.addBaseTokens l)
          (by show t.model.addTokens l = _; rw [hm, from_append]) hp hr
        simpa [givenBase, givenSpecial, apply] using this
  unfold build
  refine key ops _ vocab specials (WF.new vocab ps specials) ?_ ?_ ?_
  · unfold new; rw [addSpecialTokens_model]
  · unfold new; rw [addSpecialTokens_processors]
  · unfold new
    have := addSpecialTokens_reg (t := { model := from_ vocab, processors := ps, specialTokens := [], specialMap := fun _ => none })
      ⟨rfl, by simp⟩ (all := []) ⟨by simp, by simp⟩ specials
    simpa using this

end Tokenizer
end Tokengeex

import Verif.Props.Tokenizer
import Verif.Props.Model
import Verif.Spec.Concat
import Mathlib.Data.List.Forall2
/-
C107: encoding a text piece by piece at its special tokens.
-/
namespace Tokengeex
open Spec ScoreOps Tokenizer
variable {F : Type} [ScoreOps F]

theorem runPieces_shift (norm : UnicodeForm → Str → Str) (t : Tokenizer F) (dropout : F) (acc : List Nat) :
    ∀ (pieces : List (Str × Bool)) (rnd rnd' : Nat → F) (k k' : Nat) (acc' : List Nat), (∀ j, rnd (k + j) = rnd' (k' + j)) →
      runPieces norm t dropout rnd pieces k (acc ++ acc') =
        (runPieces norm t dropout rnd' pieces k' acc').map (acc ++ ·) := by
  intro pieces
  induction pieces with
  | nil => intro rnd rnd' k k' acc' _; rfl
  | cons item pieces ih =>
    intro rnd rnd' k k' acc' h
    unfold runPieces
    rw [show (fun j => rnd (k + j)) = fun j => rnd' (k' + j) from funext h]
    cases t.encodePiece norm item dropout (fun j => rnd' (k' + j)) with
    | error e => rfl
    | ok r =>
      simp only [res_bind_ok]
      rw [List.append_assoc]
      exact ih rnd rnd' _ _ _ fun j => by rw [Nat.add_assoc, Nat.add_assoc, h]

theorem encode_runPieces {norm : UnicodeForm → Str → Str} {t : Tokenizer F} {dropout : F} {rnd : Nat → F} {s : Str}
    {pieces : List (Str × Bool)} (h : IsSplit t.specialTokens s pieces) :
    t.encode norm s dropout rnd = runPieces norm t dropout rnd pieces 0 [] := by
  unfold Tokenizer.encode encodeFuel
  exact encodeLoop_eq norm t dropout rnd _ _ _ _ _ (splitAll_of_isSplit (s.length + 1) s _ (by omega) h)

omit [ScoreOps F] in
theorem preprocess_nil {norm : UnicodeForm → Str → Str} (hnorm : ∀ f, norm f [] = []) (t : Tokenizer F) :
    t.preprocess norm [] = [] := by
  unfold preprocess
  generalize t.processors = l
  induction l with
  | nil => rfl
  | cons p l ih =>
    rw [List.foldl_cons]
    cases p with
    | crlf => exact ih
    | unicode f => show List.foldl _ (norm f []) l = []; rw [hnorm]; exact ih

/-- **C107** Let `sp` be the special token that the splitter finds after the ordinary text `u` in `u ++ sp ++ v`: no special token
starts inside `u`, and `sp` is the first registered one that starts after it.  Then the encoding is that of `u` by
`encode_ordinary`, the id of `sp`, and the encoding of `v`.  With dropout, the draws for `v` follow those for `u`. -/
theorem C107_piecewise (norm : UnicodeForm → Str → Str) (hnorm : ∀ f, norm f [] = []) (vocab : List (ScoredToken F))
    (ps : List Processor) (specials : List Str) (ops : List (Op F)) (dropout : F) (rnd : Nat → F) (u sp v : Str) (id : Nat) :
    let t := build vocab ps specials ops
    [] ∉ t.specialTokens → t.specialTokenToId sp = some id → FirstMatch t.specialTokens (sp ++ v) sp →
    (∀ k, k < u.length → NoMatch t.specialTokens ((u ++ sp ++ v).drop k)) →
    t.encode norm (u ++ sp ++ v) dropout rnd = (do
      let a ← t.encodeOrdinaryR norm u dropout rnd
      let b ← t.encode norm v dropout (fun j => rnd (a.2 + j))
      pure (a.1 ++ id :: b)) := by
  intro t hne hid hfirst hno
  have hsp : sp ≠ [] := by
    rintro rfl
    obtain ⟨_, l1, l2, e, _⟩ := hfirst
    exact hne (by rw [e]; simp)
  obtain ⟨pieces, hv, -⟩ := encodeFuel_eq norm t hne dropout rnd v (v.length + 1) (by omega)
  have hs := isSplit_cons (b := true) hv hsp (fun _ => hfirst) (by simp) (by simp)
  have hpiece : ∀ rnd', t.encodePiece norm (sp, true) dropout rnd' = .ok ([id], 0) := by
    intro rnd'
    unfold specialTokenToId at hid
    obtain ⟨i, h1, h2⟩ := Option.map_eq_some_iff.1 hid
    simp [encodePiece, h1, ← h2, Nat.add_comm]
  by_cases hu : u = []
  · subst hu
    rw [List.nil_append, encode_runPieces hs]
    have h0 : t.encodeOrdinaryR norm [] dropout rnd = .ok ([], 0) := by
      unfold encodeOrdinaryR
      rw [preprocess_nil hnorm]
      rfl
    rw [h0]
    simp only [res_bind_ok, Nat.zero_add]
    rw [encode_runPieces hv]
    simp only [runPieces, hpiece, res_bind_ok]
    have := runPieces_shift norm t dropout [id] pieces rnd rnd 0 0 [] (fun _ => rfl)
    rw [List.append_nil] at this
    rw [List.nil_append, Nat.zero_add, this]
    cases runPieces norm t dropout rnd pieces 0 [] <;> rfl
  · have hs' := isSplit_cons (b := false) hs hu (by simp) (fun _ k hk => by rw [← List.append_assoc]; exact hno k hk)
      (by simp)
    rw [List.append_assoc, encode_runPieces hs']
    unfold runPieces
    simp only [Nat.zero_add, List.nil_append]
    rw [show t.encodePiece norm (u, false) dropout (fun j => rnd j) = t.encodeOrdinaryR norm u dropout rnd from rfl]
    cases t.encodeOrdinaryR norm u dropout rnd with
    | error e => rfl
    | ok a =>
      simp only [res_bind_ok]
      unfold runPieces
      rw [hpiece]
      simp only [res_bind_ok]
      rw [encode_runPieces hv]
      have := runPieces_shift norm t dropout (a.1 ++ [id]) pieces rnd (fun j => rnd (a.2 + j)) (a.2 + 0) 0 [] (fun _ => by simp)
      rw [List.append_nil] at this
      rw [this]
      cases runPieces norm t dropout (fun j => rnd (a.2 + j)) pieces 0 [] with
      | error e => rfl
      | ok b => simp [Except.map]

theorem tokenizer_encode_rnd (norm : UnicodeForm → Str → Str) (t : Tokenizer F) {dropout : F} (hd : le dropout zero = true)
    (rnd rnd' : Nat → F) (s : Str) : t.encode norm s dropout rnd = t.encode norm s dropout rnd' := by
  have piece : ∀ item r r', t.encodePiece norm item dropout r = t.encodePiece norm item dropout r' := by
    intro item r r'
    unfold encodePiece Model.encodeR
    rw [Model.encodeBytes_rnd hd r r']
  have loop : ∀ fuel input k k' acc, encodeLoop norm t dropout rnd fuel input k acc =
      encodeLoop norm t dropout rnd' fuel input k' acc := by
    intro fuel
    induction fuel with
    | zero => intro input k k' acc; rfl
    | succ fuel ih =>
      intro input k k' acc
      unfold encodeLoop
      cases splitNext t.specialTokens input with
      | none => rfl
      | some x =>
        obtain ⟨item, rest⟩ := x
        simp only
        rw [piece item (fun j => rnd (k + j)) (fun j => rnd' (k' + j))]
        cases t.encodePiece norm item dropout (fun j => rnd' (k' + j)) with
        | error e => rfl
        | ok r => simp only [res_bind_ok]; exact ih _ _ _ _
  exact loop _ _ _ _ _

/-- **C107** (without dropout) The same in terms of the two calls alone. -/
theorem C107_plain (norm : UnicodeForm → Str → Str) (hnorm : ∀ f, norm f [] = []) (vocab : List (ScoredToken F))
    (ps : List Processor) (specials : List Str) (ops : List (Op F)) (dropout : F) (hd : le dropout zero = true) (rnd : Nat → F)
    (u sp v : Str) (id : Nat) :
    let t := build vocab ps specials ops
    [] ∉ t.specialTokens → t.specialTokenToId sp = some id → FirstMatch t.specialTokens (sp ++ v) sp →
    (∀ k, k < u.length → NoMatch t.specialTokens ((u ++ sp ++ v).drop k)) →
    t.encode norm (u ++ sp ++ v) dropout rnd = (do
      let a ← t.encodeOrdinary norm u dropout rnd
      let b ← t.encode norm v dropout rnd
      pure (a ++ id :: b)) := by
  intro t hne hid hfirst hno
  rw [C107_piecewise norm hnorm vocab ps specials ops dropout rnd u sp v id hne hid hfirst hno]
  rw [show t.encodeOrdinary norm u dropout rnd = (t.encodeOrdinaryR norm u dropout rnd).map Prod.fst from rfl]
  show (t.encodeOrdinaryR norm u dropout rnd >>= _) = _
  cases t.encodeOrdinaryR norm u dropout rnd with
  | error e => rfl
  | ok a =>
    simp only [Except.map, res_bind_ok]
    rw [tokenizer_encode_rnd norm t hd (fun j => rnd (a.2 + j)) rnd v]

omit [ScoreOps F] in
theorem firstMatch_of_prefixFree {specials : List Str} (h : PrefixFree specials) (hn : specials.Nodup) {sp : Str}
    (hm : sp ∈ specials) (v : Str) : FirstMatch specials (sp ++ v) sp := by
  obtain ⟨l1, l2, e⟩ := List.append_of_mem hm
  refine ⟨List.prefix_append _ _, l1, l2, e, ?_⟩
  intro q hq hpre
  have hq' : q ∈ specials := by rw [e]; simp [hq]
  have : q = sp := by
    rcases List.prefix_or_prefix_of_prefix hpre (List.prefix_append sp v) with h1 | h1
    · exact h q hq' sp hm h1
    · exact (h sp hm q hq' h1).symm
  subst this
  rw [e] at hn
  exact (List.nodup_append.1 hn).2.2 q hq q (by simp) rfl

omit [ScoreOps F] in
theorem noMatch_of_plain {specials : List Str} (hne : [] ∉ specials) {u : Str} (h : PlainText specials u) (w : Str) (k : Nat)
    (hk : k < u.length) : NoMatch specials ((u ++ w).drop k) := by
  intro q hq hpre
  cases q with
  | nil => exact hne hq
  | cons c q =>
    rw [List.drop_append_of_le_length (by omega)] at hpre
    cases hd : u.drop k with
    | nil => simp at hd; omega
    | cons d r =>
      rw [hd, List.cons_append, List.cons_prefix_cons] at hpre
      refine h _ hq c rfl ?_
      rw [hpre.1]
      exact List.mem_of_mem_drop (i := k) (by rw [hd]; simp)

/-- **C107** (messages) Suppose no special token is empty or the beginning of another.  A text made of messages, each an ordinary
text in which no first character of a special token occurs and a special token, and of a last ordinary text, is encoded message by
message. -/
theorem C107_messages (norm : UnicodeForm → Str → Str) (hnorm : ∀ f, norm f [] = []) (vocab : List (ScoredToken F))
    (ps : List Processor) (specials : List Str) (ops : List (Op F)) (dropout : F) (hd : le dropout zero = true) (rnd : Nat → F)
    (messages : List (Str × Str)) (last : Str) (ids : List Nat) :
    let t := build vocab ps specials ops
    [] ∉ t.specialTokens → PrefixFree t.specialTokens → (∀ m ∈ messages, PlainText t.specialTokens m.1 ∧ m.2 ∈ t.specialTokens) →
    PlainText t.specialTokens last →
    (t.encode norm ((messages.map fun m => m.1 ++ m.2).flatten ++ last) dropout rnd = .ok ids ↔
      ∃ xs y, List.Forall₂ (fun m x => ∃ a id, t.encodeOrdinary norm m.1 dropout rnd = .ok a ∧ t.specialTokenToId m.2 = some id ∧
          x = a ++ [id]) messages xs ∧
        t.encodeOrdinary norm last dropout rnd = .ok y ∧ ids = xs.flatten ++ y) := by
  intro t hne hpf hms hlast
  have hn := (C13_registry vocab ps specials ops).2.1
  have hreg := (build_spec vocab ps specials ops).2.2.1
  have hwf : t.WF := wf_build vocab ps specials ops
  induction messages generalizing ids with
  | nil =>
    have : t.encode norm last dropout rnd = t.encodeOrdinary norm last dropout rnd := by
      refine C21_encode_ordinary norm hnorm vocab ps specials ops last dropout rnd ?_
      rintro q hq ⟨a, b, e⟩
      have hq' : q ∈ t.specialTokens := (hreg q).2 hq
      cases q with
      | nil => exact hne hq'
      | cons c q => exact hlast _ hq' c rfl (by rw [← e]; simp)
    constructor
    · intro h; exact ⟨[], ids, .nil, this ▸ h, rfl⟩
    · rintro ⟨xs, y, h1, h2, rfl⟩
      cases h1
      exact this.trans h2
  | cons m messages ih =>
    obtain ⟨hm1, hm2⟩ := hms m (by simp)
    have ih := fun ids => ih (ids := ids) fun m' hm' => hms m' (by simp [hm'])
    obtain ⟨i, hi⟩ := Option.isSome_iff_exists.1 ((hwf.isSome_iff m.2).2 hm2)
    have hid : t.specialTokenToId m.2 = some (i + t.model.vocabSize) := by simp [specialTokenToId, hi]
    rw [List.map_cons, List.flatten_cons, List.append_assoc]
    have key := C107_plain norm hnorm vocab ps specials ops dropout hd rnd m.1 m.2
      ((messages.map fun m => m.1 ++ m.2).flatten ++ last) _ hne hid (firstMatch_of_prefixFree hpf hn hm2 _)
      (fun k hk => by rw [List.append_assoc]; exact noMatch_of_plain hne hm1 _ k hk)
    change t.encode norm _ dropout rnd = _ at key
    rw [key]
    cases ha : (build vocab ps specials ops).encodeOrdinary norm m.1 dropout rnd with
    | error e =>
      constructor
      · intro h; exact absurd h (by simp)
      · rintro ⟨xs, y, h1, _, _⟩
        cases h1 with
        | cons h3 _ =>
          obtain ⟨a, _, h4, _⟩ := h3
          rw [show t.encodeOrdinary norm m.1 dropout rnd = _ from ha] at h4
          simp at h4
    | ok a =>
      simp only [res_bind_ok]
      constructor
      · intro h
        cases hb : (build vocab ps specials ops).encode norm ((messages.map fun m => m.1 ++ m.2).flatten ++ last) dropout rnd with
        | error e => rw [hb] at h; simp at h
        | ok b =>
          rw [hb] at h
          simp only [res_bind_ok] at h
          obtain ⟨xs, y, h1, h2, rfl⟩ := (ih b).1 hb
          cases h
          exact ⟨(a ++ [i + t.model.vocabSize]) :: xs, y, .cons ⟨a, _, ha, hid, rfl⟩ h1, h2, by simp⟩
      · rintro ⟨xs, y, h1, h2, rfl⟩
        cases h1 with
        | cons h3 h4 =>
          obtain ⟨a', id', h5, h6, rfl⟩ := h3
          rw [show t.encodeOrdinary norm m.1 dropout rnd = _ from ha] at h5
          cases h5
          rw [hid] at h6
          cases h6
          rw [show (build vocab ps specials ops).encode norm ((messages.map fun m => m.1 ++ m.2).flatten ++ last) dropout rnd = _ from
            (ih _).2 ⟨_, y, h4, h2, rfl⟩]
          simp only [res_bind_ok, List.flatten_cons, List.append_assoc, List.singleton_append]
          rfl

/-- Non-vacuity: a text of two messages. -/
def chatTok : Tokenizer Int := build [⟨[97], -1, true⟩, ⟨[98], -1, true⟩, ⟨[97, 98], -1, true⟩] [] [['<', 'e', '>'], ['<', 's', '>']] []

example : chatTok.encode exNorm "ab<e>b<s>a".toList 0 exRnd = .ok ([[2, 3], [1, 4]].flatten ++ [0]) := by
  refine (C107_messages exNorm (fun _ => rfl) _ [] _ [] 0 (by decide) exRnd [("ab".toList, "<e>".toList), ("b".toList, "<s>".toList)]
    "a".toList _ ?_ ?_ ?_ ?_).2 ⟨[[2, 3], [1, 4]], [0], .cons ⟨[2], 3, ?_, ?_, rfl⟩ (.cons ⟨[1], 4, ?_, ?_, rfl⟩ .nil), ?_, rfl⟩
  all_goals try unfold PrefixFree
  all_goals try unfold PlainText
  all_goals decide

end Tokengeex

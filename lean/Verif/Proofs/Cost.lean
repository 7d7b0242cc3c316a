import Verif.Model.Cost
import Verif.Proofs.Split
import Verif.Proofs.Utf8
import Verif.Proofs.Encode
import Mathlib.Tactic.Ring
/-
The counters of Model/Cost.lean, bounded.
-/
namespace Tokengeex

namespace TNode
variable {D : Type}

/-- No path below the node is longer than the number. -/
def DepthLe : Nat → TNode D → Prop
  | 0, n => ∀ b, n.children b = none
  | k + 1, n => ∀ b c, n.children b = some c → DepthLe k c

theorem depthLe_empty (k : Nat) : DepthLe k (TNode.empty : TNode D) := by
  cases k with
  | zero => intro b; rfl
  | succ k => intro b c h; exact absurd h (by simp [empty, children])

theorem depthLe_push : ∀ (bs : List UInt8) (k : Nat) (n : TNode D) (d : D), bs.length ≤ k → DepthLe k n →
    DepthLe k (n.push bs d) := by
  intro bs
  induction bs with
  | nil =>
    intro k n d _ h
    cases n with
    | mk dt ch => cases k <;> exact h
  | cons b bs ih =>
    intro k n d hk h
    cases n with
    | mk dt ch =>
      cases k with
      | zero => simp at hk
      | succ k =>
        intro x c hc
        simp only [push, children] at hc
        by_cases hx : x = b
        · rw [if_pos hx] at hc
          cases hc
          apply ih
          · simpa using hk
          · cases hb : ch b with
            | none => exact depthLe_empty k
            | some c' => exact h b c' hb
        · rw [if_neg hx] at hc
          exact h x c hc

end TNode

namespace Cost

theorem nextTicks_le {D : Type} : ∀ (rest : List UInt8) (node : TNode D) (pre : List UInt8) (k : Nat), TNode.DepthLe k node →
    ((TrieIter.nextAux node pre rest).1 = none ∧ nextTicks node rest ≤ k + 1) ∨
    (∃ k' d, (TrieIter.nextAux node pre rest).1 = some d ∧ TNode.DepthLe k' (TrieIter.nextAux node pre rest).2.node ∧
      nextTicks node rest + k' ≤ k ∧ 1 ≤ nextTicks node rest) := by
  intro rest
  induction rest with
  | nil => intro node pre k _; left; exact ⟨rfl, by simp [nextTicks]⟩
  | cons b bs ih =>
    intro node pre k h
    cases hc : node.children b with
    | none => left; simp [TrieIter.nextAux, nextTicks, hc]
    | some child =>
      cases k with
      | zero => rw [h b] at hc; cases hc
      | succ k =>
        have hch : TNode.DepthLe k child := h b child hc
        cases hd : child.data with
        | some d =>
          right
          exact ⟨k, d, by simp [TrieIter.nextAux, hc, hd], by simpa [TrieIter.nextAux, hc, hd] using hch,
            by simp [nextTicks, hc, hd]; omega, by simp [nextTicks, hc, hd]⟩
        | none =>
          have e1 : TrieIter.nextAux node pre (b :: bs) = TrieIter.nextAux child (pre ++ [b]) bs := by
            simp [TrieIter.nextAux, hc, hd]
          have e2 : nextTicks node (b :: bs) = 1 + nextTicks child bs := by simp [nextTicks, hc, hd]
          rw [e1, e2]
          rcases ih child (pre ++ [b]) k hch with ⟨h1, h2⟩ | ⟨k', d, h1, h2, h3, h4⟩
          · left; exact ⟨h1, by omega⟩
          · right; exact ⟨k', d, h1, h2, by omega, by omega⟩

theorem drainTicks_le {D : Type} : ∀ (fuel : Nat) (it : TrieIter D) (k : Nat), TNode.DepthLe k it.node →
    drainTicks fuel it ≤ k + 1 := by
  intro fuel
  induction fuel with
  | zero => intro it k _; simp [drainTicks]
  | succ fuel ih =>
    intro it k h
    rw [drainTicks]
    rcases nextTicks_le it.rest it.node it.pre k h with ⟨h1, h2⟩ | ⟨k', d, h1, h2, h3, h4⟩
    · rcases e : it.next with ⟨o, it'⟩
      have : o = none := by rw [TrieIter.next] at e; rw [e] at h1; exact h1
      subst this
      simpa using h2
    · rcases e : it.next with ⟨o, it'⟩
      rw [TrieIter.next] at e
      rw [e] at h1 h2
      simp only at h1 h2
      subst h1
      have := ih it' k' h2
      simp only
      omega

theorem drain_length_le {D : Type} : ∀ (fuel : Nat) (it : TrieIter D) (k : Nat), TNode.DepthLe k it.node →
    (TrieIter.drain fuel it).length ≤ k := by
  intro fuel
  induction fuel with
  | zero => intro it k _; simp [TrieIter.drain]
  | succ fuel ih =>
    intro it k h
    rw [TrieIter.drain]
    rcases nextTicks_le it.rest it.node it.pre k h with ⟨h1, h2⟩ | ⟨k', d, h1, h2, h3, h4⟩
    · rcases e : it.next with ⟨o, it'⟩
      have : o = none := by rw [TrieIter.next] at e; rw [e] at h1; exact h1
      subst this
      simp
    · rcases e : it.next with ⟨o, it'⟩
      rw [TrieIter.next] at e
      rw [e] at h1 h2
      simp only at h1 h2
      subst h1
      have := ih it' k' h2
      simp only [List.length_cons]
      omega

section
variable {F : Type}

/-- The trie of a model is no deeper than its longest token. -/
def Shallow (m : Model F) : Prop := ∀ k, (∀ tok ∈ m.vocab, tok.value.length ≤ k) → TNode.DepthLe k m.trie

theorem shallow_from (vocab : List (ScoredToken F)) : Shallow (Model.from_ vocab) := by
  intro k hk
  have key : ∀ (l : List (ScoredToken F × Nat)) (acc : (Token → Option TokenID) × TNode (TokenID × Nat)),
      (∀ p ∈ l, p.1.value.length ≤ k) → TNode.DepthLe k acc.2 → TNode.DepthLe k (l.foldl Model.fromStep acc).2 := by
    intro l
    induction l with
    | nil => intro acc _ h; exact h
    | cons p l ih =>
      intro acc hl h
      apply ih
      · exact fun q hq => hl q (List.mem_cons_of_mem _ hq)
      · exact TNode.depthLe_push _ _ _ _ (hl p List.mem_cons_self) h
  apply key
  · intro p hp
    exact hk p.1 (List.fst_mem_of_mem_zipIdx hp)
  · exact TNode.depthLe_empty k

theorem shallow_add (m : Model F) (h : Shallow m) (tok : ScoredToken F) : Shallow (m.addToken tok) := by
  intro k hk
  refine TNode.depthLe_push _ _ _ _ (hk tok (by simp [Model.addToken])) (h k ?_)
  intro t ht
  exact hk t (by simp [Model.addToken, ht])

theorem shallow_adds (ts : List (ScoredToken F)) : ∀ (m : Model F), Shallow m → Shallow (m.addTokens ts) := by
  induction ts with
  | nil => intro m h; exact h
  | cons t ts ih => intro m h; exact ih _ (shallow_add m h t)

theorem addSpecials_model (l : List Str) : ∀ t : Tokenizer F, (t.addSpecialTokens l).model = t.model := by
  induction l with
  | nil => intro t; rfl
  | cons s l ih =>
    intro t
    have : (t.addSpecialToken s).model = t.model := by
      unfold Tokenizer.addSpecialToken
      by_cases h : (t.specialMap s).isSome = true
      · rw [if_pos h]
      · rw [if_neg h]
    rw [← this]
    exact ih _

theorem shallow_build (vocab : List (ScoredToken F)) (ps : List Processor) (sp : List Str) (ops : List (Tokenizer.Op F)) :
    Shallow (Tokenizer.build vocab ps sp ops).model := by
  have key : ∀ (ops : List (Tokenizer.Op F)) (t : Tokenizer F), Shallow t.model → Shallow (ops.foldl Tokenizer.apply t).model := by
    intro ops
    induction ops with
    | nil => intro t h; exact h
    | cons op ops ih =>
      intro t h
      apply ih
      cases op with
      | addSpecial ts =>
        show Shallow (t.addSpecialTokens ts).model
        rw [addSpecials_model]; exact h
      | addBase ts => exact shallow_adds ts _ h
  apply key
  show Shallow (Tokenizer.addSpecialTokens _ _).model
  rw [addSpecials_model]
  exact shallow_from vocab

end

section
variable {F : Type} [ScoreOps F]

theorem relaxAll_eq (m : Model F) (dropout : F) (rnd : Nat → F) (pos : Nat) : ∀ cs st,
    (relaxAll m dropout rnd pos cs st).1 = cs.foldlM (m.relax dropout rnd pos) st ∧
    (relaxAll m dropout rnd pos cs st).2 ≤ cs.length := by
  intro cs
  induction cs with
  | nil => intro st; exact ⟨rfl, by simp [relaxAll]⟩
  | cons c cs ih =>
    intro st
    rw [relaxAll, List.foldlM_cons]
    cases h : m.relax dropout rnd pos st c with
    | error e => exact ⟨rfl, by simp⟩
    | ok st' =>
      have := ih st'
      refine ⟨this.1, ?_⟩
      have := this.2
      simp only [List.length_cons]
      omega

theorem encodePos_eq (m : Model F) (dropout : F) (rnd : Nat → F) (input : List UInt8) (st pos) {k : Nat}
    (hk : TNode.DepthLe k m.trie) :
    (encodePos m dropout rnd input st pos).1 = m.encodePos dropout rnd input st pos ∧
    (encodePos m dropout rnd input st pos).2 ≤ 2 * k + 2 := by
  unfold encodePos Model.encodePos
  cases h : idx st.1 pos with
  | error e => exact ⟨rfl, by simp⟩
  | ok cur =>
    by_cases hc : cur.start.isNone = true
    · simp only [hc, if_true]
      exact ⟨by simp [bind, Except.bind, pure, Except.pure, hc], by omega⟩
    · simp only [hc]
      have h1 := relaxAll_eq m dropout rnd pos (m.commonPrefixSearch (input.drop pos)) st
      refine ⟨by simp [bind, Except.bind, hc, h1.1], ?_⟩
      have h2 : drainTicks ((input.drop pos).length + 1) ⟨m.trie, [], input.drop pos⟩ ≤ k + 1 := drainTicks_le _ _ k hk
      have h3 : (m.commonPrefixSearch (input.drop pos)).length ≤ k := drain_length_le _ _ k hk
      have := h1.2
      simp only [Bool.false_eq_true, if_false]
      omega

theorem encodeAll_eq (m : Model F) (dropout : F) (rnd : Nat → F) (input : List UInt8) {k : Nat}
    (hk : TNode.DepthLe k m.trie) : ∀ ps st,
    (encodeAll m dropout rnd input ps st).1 = ps.foldlM (m.encodePos dropout rnd input) st ∧
    (encodeAll m dropout rnd input ps st).2 ≤ (2 * k + 2) * ps.length := by
  intro ps
  induction ps with
  | nil => intro st; exact ⟨rfl, by simp [encodeAll]⟩
  | cons p ps ih =>
    intro st
    have h1 := encodePos_eq m dropout rnd input st p hk
    rw [encodeAll, List.foldlM_cons, ← h1.1, List.length_cons, Nat.mul_succ]
    rcases h : encodePos m dropout rnd input st p with ⟨r, c⟩
    rw [h] at h1
    cases r with
    | error e => exact ⟨rfl, by have := h1.2; simp only at this ⊢; omega⟩
    | ok st' =>
      have h2 := ih st'
      refine ⟨h2.1, ?_⟩
      have := h1.2; have := h2.2
      simp only at this ⊢
      omega

omit [ScoreOps F] in
theorem backtrack_eq (dp : List (Model.DpNode F)) (n : Nat) : ∀ fuel pos ids,
    (backtrack dp n fuel pos ids).1 = Model.backtrack dp n fuel pos ids ∧ (backtrack dp n fuel pos ids).2 ≤ 2 * fuel := by
  intro fuel
  induction fuel with
  | zero => intro pos ids; exact ⟨rfl, by simp [backtrack]⟩
  | succ fuel ih =>
    intro pos ids
    rw [backtrack, Model.backtrack]
    by_cases hp : pos > 0
    · rw [if_pos hp, if_pos hp]
      cases h : idx dp pos with
      | error e => exact ⟨rfl, by simp only; omega⟩
      | ok node =>
        cases hs : node.start with
        | none => exact ⟨by simp [bind, Except.bind, hs], by simp only [hs]; omega⟩
        | some start =>
          have := ih start (node.id :: ids)
          refine ⟨by simp [bind, Except.bind, hs, this.1], ?_⟩
          have := this.2
          simp only [hs]
          omega
    · rw [if_neg hp, if_neg hp]
      exact ⟨rfl, by simp⟩

theorem encodeBytes_eq (m : Model F) (input : List UInt8) (dropout : F) (rnd : Nat → F) {k : Nat}
    (hk : TNode.DepthLe k m.trie) :
    (encodeBytes m input dropout rnd).1 = m.encodeBytes input dropout rnd ∧
    (encodeBytes m input dropout rnd).2 ≤ (2 * k + 5) * input.length + 3 := by
  have h1 := encodeAll_eq m dropout rnd input hk (List.range input.length) (Model.initDp input.length, 0)
  have e : (2 * k + 5) * input.length + 3 = (2 * k + 2) * input.length + 3 * input.length + 3 := by ring
  rw [e]
  unfold encodeBytes Model.encodeBytes
  simp only
  rw [← h1.1]
  rw [List.length_range] at h1
  rcases h : encodeAll m dropout rnd input (List.range input.length) (Model.initDp input.length, 0) with ⟨r, c⟩
  rw [h] at h1
  have h1' := h1.2
  simp only at h1'
  cases r with
  | error err => exact ⟨rfl, by simp only; omega⟩
  | ok st =>
    have h2 := backtrack_eq st.1 input.length (input.length + 1) input.length []
    simp only
    refine ⟨?_, ?_⟩
    · rw [h2.1]
      show _ = (Model.backtrack st.1 input.length (input.length + 1) input.length [] >>= fun ids => pure (ids, st.2))
      cases Model.backtrack st.1 input.length (input.length + 1) input.length [] <;> rfl
    · have := h2.2
      omega

omit [ScoreOps F] in
theorem decodeLoop_eq (m : Model F) {k : Nat} (hk : ∀ tok ∈ m.vocab, tok.value.length ≤ k) : ∀ ids res,
    (decodeLoop m ids res).1 = m.decodeLoop ids res ∧ (decodeLoop m ids res).2 ≤ (k + 1) * ids.length ∧
    ∀ bs, (decodeLoop m ids res).1 = .ok bs → bs.length ≤ res.length + k * ids.length := by
  intro ids
  induction ids with
  | nil =>
    intro res
    refine ⟨rfl, by simp [decodeLoop], ?_⟩
    intro bs h; cases h; simp
  | cons id ids ih =>
    intro res
    rw [decodeLoop, Model.decodeLoop, List.length_cons, Nat.mul_succ, Nat.mul_succ]
    by_cases h : id ≥ m.vocabSize
    · rw [if_pos h, if_pos h]
      exact ⟨rfl, by simp only; omega, by intro bs h; cases h⟩
    · rw [if_neg h, if_neg h]
      cases hi : idx m.vocab id with
      | error e => exact ⟨rfl, by simp only; omega, by intro bs h; cases h⟩
      | ok tok =>
        have hm : tok.value.length ≤ k := by
          apply hk
          unfold idx at hi
          cases hg : m.vocab[id]? with
          | none => rw [hg] at hi; cases hi
          | some x => rw [hg] at hi; cases hi; exact List.mem_of_getElem? hg
        have := ih (res ++ tok.value)
        obtain ⟨a, b, c⟩ := this
        refine ⟨a, by simp only; omega, ?_⟩
        intro bs hb
        have := c bs hb
        rw [List.length_append] at this
        omega

theorem lossySteps_le : ∀ (fuel : Nat) (bs : List UInt8), lossySteps fuel bs ≤ fuel := by
  intro fuel
  induction fuel with
  | zero => intro bs; cases bs <;> simp [lossySteps]
  | succ fuel ih =>
    intro bs
    cases bs with
    | nil => simp [lossySteps]
    | cons b rest =>
      have := ih (utf8Step b rest).2
      simp only [lossySteps]
      omega

/-- What trying every special token at one position costs. -/
def width (specials : List Str) : Nat := (specials.map fun t => 1 + (enc t).length).sum

theorem matchTicks_le (specials : List Str) (s : Str) : matchTicks specials s ≤ width specials := by
  induction specials with
  | nil => simp [matchTicks]
  | cons t ts ih =>
    simp only [matchTicks, width, List.map_cons, List.sum_cons]
    unfold width at ih
    by_cases h : t.isPrefixOf s = true
    · rw [if_pos h]; omega
    · rw [if_neg h]; omega

/-- The scan looks at no more positions than the item it returns has characters, and one. -/
theorem splitScan_le (specials : List Str) (input : Str) : ∀ (rest : Str) (i : Nat), rest = input.drop i → i ≤ input.length →
    splitScan specials rest + i * (width specials + 1) ≤
      ((Tokengeex.splitScan specials input i rest).1.1.length + 1) * (width specials + 1) := by
  intro rest
  induction rest with
  | nil =>
    intro i h hi
    have : i = input.length := by
      have := congrArg List.length h
      simp at this; omega
    subst this
    simp only [splitScan, Tokengeex.splitScan]
    rw [Nat.succ_mul]
    omega
  | cons c cs ih =>
    intro i h hi
    have hlt : i < input.length := by
      have := congrArg List.length h
      simp at this; omega
    have hm := matchTicks_le specials (c :: cs)
    rw [splitScan, Tokengeex.splitScan]
    cases hx : matchAt specials (c :: cs) with
    | some t =>
      simp only
      by_cases h0 : i > 0
      · rw [if_pos h0]
        simp only [List.length_take, Nat.min_eq_left hi]
        rw [Nat.succ_mul]
        omega
      · rw [if_neg h0]
        have : i = 0 := by omega
        subst this
        rw [Nat.succ_mul]
        omega
    | none =>
      simp only
      have hcs : cs = input.drop (i + 1) := by
        rw [show i + 1 = 1 + i by omega, Nat.add_comm, ← List.drop_drop, ← h]; rfl
      have := ih (i + 1) hcs hlt
      rw [Nat.succ_mul i] at this
      omega

theorem length_le_enc (s : Str) : s.length ≤ (enc s).length := by
  induction s with
  | nil => simp
  | cons c s ih =>
    have : enc (c :: s) = enc [c] ++ enc s := by rw [← enc_append]; rfl
    rw [this, List.length_append, List.length_cons]
    have : 0 < (enc [c]).length := by
      simp only [enc, List.flatMap_cons, List.flatMap_nil, List.append_nil]
      unfold String.utf8EncodeChar
      dsimp only
      split_ifs <;> simp
    omega

theorem encodeLoop_eq (norm : UnicodeForm → Str → Str) (t : Tokenizer F) (dropout : F) (rnd : Nat → F) {k g : Nat}
    (hk : TNode.DepthLe k t.model.trie) (hg : ∀ s, (enc (t.preprocess norm s)).length ≤ g * (enc s).length)
    (hs : [] ∉ t.specialTokens) : ∀ fuel input j ids,
    (encodeLoop norm t dropout rnd fuel input j ids).1 = t.encodeLoop norm dropout rnd fuel input j ids ∧
    (encodeLoop norm t dropout rnd fuel input j ids).2 ≤
      ((2 * k + 5) * g + 3 + 2 * (width t.specialTokens + 1)) * (enc input).length + 1 := by
  intro fuel
  induction fuel with
  | zero => intro input j ids; exact ⟨rfl, by simp [encodeLoop]⟩
  | succ fuel ih =>
    intro input j ids
    rw [encodeLoop, Tokenizer.encodeLoop]
    by_cases hi : input = []
    · subst hi
      exact ⟨rfl, by simp [splitNext]⟩
    · obtain ⟨p, b, rest, e, he, hne, _, _⟩ := splitNext_spec (specials := t.specialTokens) hi
      have hp : p ≠ [] := by
        rcases hne with h | ⟨_, _, h⟩
        · exact h
        · exact absurd h hs
      have hscan : splitScan t.specialTokens input ≤ 2 * (width t.specialTokens + 1) * (enc p).length := by
        have h1 := splitScan_le t.specialTokens input input 0 rfl (Nat.zero_le _)
        have h2 : Tokengeex.splitScan t.specialTokens input 0 input = ((p, b), rest) := by
          unfold splitNext at e
          rw [if_neg hi] at e
          exact Option.some.inj e
        rw [h2] at h1
        have h3 := length_le_enc p
        have h4 : 0 < p.length := List.length_pos_iff.2 hp
        have h5 : (p.length + 1) * (width t.specialTokens + 1) ≤ 2 * (enc p).length * (width t.specialTokens + 1) :=
          Nat.mul_le_mul_right _ (by omega)
        have h6 : 2 * (width t.specialTokens + 1) * (enc p).length = 2 * (enc p).length * (width t.specialTokens + 1) := by ring
        simp only at h1
        omega
      have hpos : 1 ≤ (enc p).length := by
        have := length_le_enc p
        have : 0 < p.length := List.length_pos_iff.2 hp
        omega
      rw [e]
      simp only
      have hpiece : ∀ pc : Res (List TokenID × Nat) × Nat,
          pc = (if b then
            match t.specialMap p with
            | some id => (.ok ([t.model.vocabSize + id], 0), 1)
            | none => (.error .panic, 1)
            else encodeBytes t.model (enc (t.preprocess norm p)) dropout (fun i => rnd (j + i))) →
          pc.1 = t.encodePiece norm (p, b) dropout (fun i => rnd (j + i)) ∧
          pc.2 ≤ ((2 * k + 5) * g + 3) * (enc p).length := by
        intro pc hpc
        subst hpc
        have hm : 3 ≤ ((2 * k + 5) * g + 3) * (enc p).length :=
          le_trans (by omega) (Nat.le_mul_of_pos_right _ hpos)
        unfold Tokenizer.encodePiece
        cases b with
        | true =>
          simp only [if_true]
          cases t.specialMap p with
          | none => exact ⟨rfl, by simp only; omega⟩
          | some id => exact ⟨rfl, by simp only; omega⟩
        | false =>
          simp only [Bool.false_eq_true, if_false]
          have h1 := encodeBytes_eq t.model (enc (t.preprocess norm p)) dropout (fun i => rnd (j + i)) hk
          refine ⟨h1.1, le_trans h1.2 ?_⟩
          have h2 : (2 * k + 5) * (enc (t.preprocess norm p)).length ≤ (2 * k + 5) * (g * (enc p).length) :=
            Nat.mul_le_mul_left _ (hg p)
          have h3 : ((2 * k + 5) * g + 3) * (enc p).length = (2 * k + 5) * (g * (enc p).length) + 3 * (enc p).length := by ring
          omega
      have hl : (enc input).length = (enc p).length + (enc rest).length := by
        rw [he, enc_append, List.length_append]
      have hsum : ((2 * k + 5) * g + 3 + 2 * (width t.specialTokens + 1)) * (enc input).length =
          ((2 * k + 5) * g + 3) * (enc p).length + 2 * (width t.specialTokens + 1) * (enc p).length +
          ((2 * k + 5) * g + 3 + 2 * (width t.specialTokens + 1)) * (enc rest).length := by
        rw [hl]; ring
      rw [hsum]
      obtain ⟨q1, q2⟩ := hpiece _ rfl
      rw [← q1]
      generalize (if b then
            match t.specialMap p with
            | some id => (.ok ([t.model.vocabSize + id], 0), 1)
            | none => (.error .panic, 1)
            else encodeBytes t.model (enc (t.preprocess norm p)) dropout (fun i => rnd (j + i)) :
            Res (List TokenID × Nat) × Nat) = pc at q2 ⊢
      rcases pc with ⟨r, c⟩
      simp only at q2
      cases r with
      | error e => exact ⟨rfl, by simp only; omega⟩
      | ok r =>
        have := ih rest (j + r.2) (ids ++ r.1)
        refine ⟨this.1, ?_⟩
        have := this.2
        simp only
        omega

end
end Cost
end Tokengeex
namespace Tokengeex
namespace Cost
open Model ScoreOps
section
variable {F : Type} [ScoreOps F]

theorem relaxAll_ok (m : Model F) (dropout : F) (rnd : Nat → F) (pos : Nat) : ∀ cs st st',
    (relaxAll m dropout rnd pos cs st).1 = .ok st' → (relaxAll m dropout rnd pos cs st).2 = cs.length := by
  intro cs
  induction cs with
  | nil => intro st st' _; rfl
  | cons c cs ih =>
    intro st st' h
    rw [relaxAll] at h ⊢
    cases hr : m.relax dropout rnd pos st c with
    | error e => rw [hr] at h; cases h
    | ok s1 =>
      rw [hr] at h
      have := ih s1 st' h
      simp only [List.length_cons]
      omega

theorem encodeAll_ge {m : Model F} (hm : m.WF) (dropout : F) (rnd : Nat → F) (input : List UInt8)
    (hc : ∀ p, p ≤ input.length → ((m.pTable dropout rnd input p).1 p).start.isSome = true) {k : Nat}
    (hk : TNode.DepthLe k m.trie) :
    ∀ (q p : Nat) (st), p + q = input.length → Rel input.length st (m.pTable dropout rnd input p) →
    ((List.range' p q).map fun i => (m.commonPrefixSearch (input.drop i)).length).sum ≤
      (encodeAll m dropout rnd input (List.range' p q) st).2 := by
  intro q
  induction q with
  | zero => intro p st _ _; simp
  | succ q ih =>
    intro p st hpq hr
    have hp : p ≤ input.length := by omega
    obtain ⟨s', e1, e2⟩ := encodePos_rel hm dropout rnd st _ hp hr
    rw [← pTable_succ] at e2
    have h1 := encodePos_eq m dropout rnd input st p hk
    rw [e1] at h1
    have h2 : (m.commonPrefixSearch (input.drop p)).length ≤ (encodePos m dropout rnd input st p).2 := by
      have hst : idx st.1 p = .ok (tbl st.1 p) := by
        unfold idx
        rw [tbl_getElem? (by rw [hr.1]; omega)]
      have hs : (tbl st.1 p).start.isNone = false := by
        rw [hr.2.1 p hp]
        have := hc p hp
        cases h : ((m.pTable dropout rnd input p).1 p).start with
        | none => rw [h] at this; cases this
        | some _ => rfl
      have h1' := h1.1
      unfold encodePos at h1' ⊢
      rw [hst] at h1' ⊢
      simp only [hs, Bool.false_eq_true, if_false] at h1' ⊢
      rw [relaxAll_ok m dropout rnd p _ st s' h1']
      omega
    rw [List.range'_succ, List.map_cons, List.sum_cons, encodeAll]
    rcases hx : encodePos m dropout rnd input st p with ⟨r, c⟩
    rw [hx] at h1 h2
    have : r = .ok s' := h1.1
    subst this
    have := ih (p + 1) s' (by omega) e2
    simp only at h2 ⊢
    omega

omit [ScoreOps F] in
theorem cps_length_ge {m : Model F} (hm : m.WF) {input : List UInt8} {p l : Nat} (hl : p + l ≤ input.length)
    (he : ∀ j, j < l → (m.edge input p (p + (j + 1))).isSome = true) : l ≤ (m.commonPrefixSearch (input.drop p)).length := by
  rw [cps_eq hm]
  obtain ⟨r, hr⟩ : ∃ r, input.length - p = l + r := ⟨input.length - p - l, by omega⟩
  rw [hr, List.range_add, List.filterMap_append, List.length_append]
  have : ∀ l' ≤ l, ((List.range l').filterMap fun j => (m.edge input p (p + (j + 1))).map fun id => (id, j + 1)).length = l' := by
    intro l'
    induction l' with
    | zero => intro _; rfl
    | succ l' ih =>
      intro h
      rw [List.range_succ, List.filterMap_append, List.length_append, ih (by omega)]
      have := he l' (by omega)
      cases hx : m.edge input p (p + (l' + 1)) with
      | none => rw [hx] at this; cases this
      | some id => simp [hx]
  rw [this l (Nat.le_refl _)]
  omega

theorem encodeBytes_ge {m : Model F} (hm : m.WF) (dropout : F) (rnd : Nat → F) (input : List UInt8) {k : Nat}
    (hc : ∀ p, p ≤ input.length → ((m.pTable dropout rnd input p).1 p).start.isSome = true)
    (hk : TNode.DepthLe k m.trie) :
    ((List.range input.length).map fun i => (m.commonPrefixSearch (input.drop i)).length).sum ≤
      (encodeBytes m input dropout rnd).2 := by
  have h := encodeAll_ge hm dropout rnd input hc hk input.length 0 (initDp input.length, 0) (by omega) (initDp_rel _)
  rw [← List.range_eq_range'] at h
  unfold encodeBytes
  simp only
  rcases hx : encodeAll m dropout rnd input (List.range input.length) (initDp input.length, 0) with ⟨r, c⟩
  rw [hx] at h
  cases r with
  | error e => simp only at h ⊢; omega
  | ok st => simp only at h ⊢; omega

end
end Cost
end Tokengeex

import Verif.Proofs.Feed
import Verif.Proofs.Monad
/-
Lemmas about `VocabularyGenerator::generate`.
-/
namespace Tokengeex.Generator
open Spec Parallel ScoreOps RealOps

variable {F : Type} [TrainOps F]

/-! ### Histories -/

theorem taken_config {g h : Generator F} (e : h = { g with frequencies := h.frequencies }) {s : Str} {sel : List Str}
    (ht : Taken h s sel) : Taken g s sel := by
  rw [e] at ht
  exact ⟨ht.nodup, ht.sound, ht.complete⟩

omit [TrainOps F] in
theorem new_frequency (max : Nat) (prob : F) (split : Option (Str → List Str)) (allow : Option (Str → Bool))
    (added suggested : List Str) (t : Str) :
    frequency (new max prob split allow added suggested) t = added.count t + suggested.count t := by
  unfold frequency new
  simp only [FreqTable.foldl_incr, FreqTable.get?_foldl, FreqTable.entrySum_ones, FreqTable.get?]
  simp

omit [TrainOps F] in
theorem new_keys (max : Nat) (prob : F) (split : Option (Str → List Str)) (allow : Option (Str → Bool))
    (added suggested : List Str) :
    ((new max prob split allow added suggested).frequencies.map (·.1)).Nodup ∧
    ∀ t, t ∈ (new max prob split allow added suggested).frequencies.map (·.1) ↔ t ∈ added ∨ t ∈ suggested := by
  unfold new
  simp only [FreqTable.foldl_incr]
  constructor
  · exact FreqTable.nodup_foldl _ _ (FreqTable.nodup_foldl _ _ (by simp))
  · intro t
    rw [FreqTable.keys_foldl, FreqTable.keys_foldl]
    simp

/-- What holds of every generator. -/
theorem fed_facts {max : Nat} {prob : F} {split : Option (Str → List Str)} {allow : Option (Str → Bool)}
    {added suggested fed : List Str} {g : Generator F} (h : Fed max prob split allow added suggested fed g) :
    ∃ sels, List.Forall₂ (Taken (new max prob split allow added suggested)) fed sels ∧
      (∀ t, frequency g t = added.count t + suggested.count t + sels.countP (fun sel => decide (t ∈ sel))) ∧
      (g.frequencies.map (·.1)).Nodup ∧
      (∀ t, t ∈ g.frequencies.map (·.1) ↔ t ∈ added ∨ t ∈ suggested ∨ ∃ sel ∈ sels, t ∈ sel) ∧
      g = { new max prob split allow added suggested with frequencies := g.frequencies } := by
  induction h with
  | new =>
    refine ⟨[], .nil, ?_, (new_keys ..).1, ?_, rfl⟩
    · intro t; rw [new_frequency]; simp
    · intro t; rw [(new_keys ..).2]; simp
  | @feed fed samples g g' shard h1 h2 ih =>
    obtain ⟨sels, a1, a2, a3, a4, a5⟩ := ih
    obtain ⟨sels', b1, b2, b3, b4, b5⟩ := feed_facts h2
    refine ⟨sels ++ sels', List.rel_append a1 (b1.imp fun _ _ h => taken_config a5 h), ?_, b4 a3, ?_, ?_⟩
    · intro t; rw [b2, a2, List.countP_append]; omega
    · intro t
      rw [b3, a4]
      simp only [List.mem_append]
      constructor
      · rintro ((h | h | ⟨sel, h, h'⟩) | ⟨sel, h, h'⟩)
        · exact Or.inl h
        · exact Or.inr (Or.inl h)
        · exact Or.inr (Or.inr ⟨sel, Or.inl h, h'⟩)
        · exact Or.inr (Or.inr ⟨sel, Or.inr h, h'⟩)
      · rintro (h | h | ⟨sel, h | h, h'⟩)
        · exact Or.inl (Or.inl h)
        · exact Or.inl (Or.inr (Or.inl h))
        · exact Or.inl (Or.inr (Or.inr ⟨sel, h, h'⟩))
        · exact Or.inr ⟨sel, h, h'⟩
    · rw [b5, a5]

theorem fed_positive {max : Nat} {prob : F} {split : Option (Str → List Str)} {allow : Option (Str → Bool)}
    {added suggested fed : List Str} {g : Generator F} (h : Fed max prob split allow added suggested fed g) (t : Str) :
    t ∈ g.frequencies.map (·.1) ↔ 0 < frequency g t := by
  obtain ⟨sels, h1, h2, h3, h4, _⟩ := fed_facts h
  rw [h4, h2]
  constructor
  · rintro (h | h | ⟨sel, h, h'⟩)
    · have := List.count_pos_iff.2 h; omega
    · have := List.count_pos_iff.2 h; omega
    · have : 0 < sels.countP (fun sel => decide (t ∈ sel)) := List.countP_pos_iff.2 ⟨sel, h, by simpa using h'⟩
      omega
  · intro h
    by_contra hn
    simp only [not_or, not_exists, not_and] at hn
    have e1 := List.count_eq_zero.2 hn.1
    have e2 := List.count_eq_zero.2 hn.2.1
    have e3 : sels.countP (fun sel => decide (t ∈ sel)) = 0 := List.countP_eq_zero.2 (by simpa using hn.2.2)
    omega

/-! ### The two loops as one -/

/-- A string, its count and whether it is protected. -/
abbrev Item := Str × Nat × Bool

def Item.token (e : Item) : ScoredToken F := ⟨enc e.1, ofNat (e.2.1 * (enc e.1).length), e.2.2⟩

/-- Both loops. -/
def loop (size : Nat) : List Item → Acc F → Acc F
  | [], acc => acc
  | e :: rest, acc =>
    if acc.vocab.length ≥ size then acc
    else if enc e.1 ∉ acc.seen ∧ (enc e.1).length > 1 then
      loop size rest { vocab := acc.vocab ++ [Item.token e], seen := acc.seen ++ [enc e.1] }
    else loop size rest acc

theorem loop_full (size : Nat) (l : List Item) (acc : Acc F) (h : acc.vocab.length ≥ size) : loop size l acc = acc := by
  cases l with
  | nil => rfl
  | cons e l => rw [loop, if_pos h]

theorem loop_append (size : Nat) : ∀ (l₁ l₂ : List Item) (acc : Acc F),
    loop size (l₁ ++ l₂) acc = loop size l₂ (loop size l₁ acc) := by
  intro l₁
  induction l₁ with
  | nil => intro l₂ acc; rfl
  | cons e l₁ ih =>
    intro l₂ acc
    rw [List.cons_append, loop, loop]
    by_cases h : acc.vocab.length ≥ size
    · rw [if_pos h, if_pos h, loop_full _ _ _ h]
    · rw [if_neg h, if_neg h]
      by_cases h' : enc e.1 ∉ acc.seen ∧ (enc e.1).length > 1
      · rw [if_pos h', if_pos h', ih]
      · rw [if_neg h', if_neg h', ih]

theorem addFrequent_loop (size : Nat) : ∀ (l : List (Str × Nat)) (acc : Acc F),
    addFrequent size l acc = loop size (l.map fun e => (e.1, e.2, false)) acc := by
  intro l
  induction l with
  | nil => intro acc; rfl
  | cons e l ih =>
    intro acc
    rw [List.map_cons, loop, addFrequent, ih, ih]
    rfl

theorem addListed_loop (freqs : FreqTable Str) (size : Nat) : ∀ (l : List (Str × Bool)) (acc : Acc F),
    (∀ e ∈ l, ∃ n, freqs.get? e.1 = some n) →
    addListed freqs size l acc = .ok (loop size (l.map fun e => (e.1, (freqs.get? e.1).getD 0, e.2)) acc) := by
  intro l
  induction l with
  | nil => intro acc _; rfl
  | cons e l ih =>
    intro acc h
    obtain ⟨n, hn⟩ := h e (List.mem_cons_self ..)
    have ih' := fun acc => ih acc (fun x hx => h x (List.mem_cons_of_mem _ hx))
    rw [List.map_cons, loop, addListed]
    simp only [hn, ih', Option.getD_some, Item.token]
    split <;> try rfl
    split <;> rfl

/-- Vocabulary and `seen` agree. -/
def Consistent (acc : Acc F) : Prop := acc.seen = acc.vocab.map (·.value) ∧ acc.seen.Nodup

theorem loop_facts (size : Nat) : ∀ (l : List Item) (acc : Acc F), Consistent acc →
    ∃ taken : List Item, taken.Sublist l ∧ (loop size l acc).vocab = acc.vocab ++ taken.map Item.token ∧
      Consistent (loop size l acc) ∧ (∀ e ∈ taken, (enc e.1).length > 1) ∧
      (loop size l acc).vocab.length ≤ max acc.vocab.length size ∧
      (∀ e ∈ l, (enc e.1).length > 1 → enc e.1 ∉ (loop size l acc).seen → size ≤ (loop size l acc).vocab.length) ∧
      (∀ R : Item → Item → Prop, l.Pairwise R →
        ∀ e ∈ l, (enc e.1).length > 1 → enc e.1 ∉ (loop size l acc).seen → ∀ e' ∈ taken, R e' e) := by
  intro l
  induction l with
  | nil =>
    intro acc h
    refine ⟨[], .slnil, by simp [loop], h, by simp, ?_, by simp, by simp⟩
    simp only [loop]; omega
  | cons e l ih =>
    intro acc h
    rw [loop]
    by_cases hf : acc.vocab.length ≥ size
    · rw [if_pos hf]
      exact ⟨[], by simp, by simp, h, by simp, by omega, fun _ _ _ _ => hf, by simp⟩
    · rw [if_neg hf]
      by_cases ht : enc e.1 ∉ acc.seen ∧ (enc e.1).length > 1
      · rw [if_pos ht]
        have hc : Consistent ({ vocab := acc.vocab ++ [Item.token e], seen := acc.seen ++ [enc e.1] } : Acc F) := by
          refine ⟨?_, ?_⟩
          · simp [h.1, Item.token]
          · refine List.nodup_append.2 ⟨h.2, List.nodup_singleton _, ?_⟩
            intro a ha b hb
            rw [List.mem_singleton] at hb
            subst hb
            rintro rfl
            exact ht.1 ha
        obtain ⟨taken, h1, h2, h3, h4, h5, h6, h7⟩ := ih _ hc
        generalize loop size l { vocab := acc.vocab ++ [Item.token e], seen := acc.seen ++ [enc e.1] } = r at *
        have hin : enc e.1 ∈ r.seen := by
          rw [h3.1, h2]
          simp [Item.token]
        refine ⟨e :: taken, h1.cons_cons _, by rw [h2]; simp, h3, ?_, ?_, ?_, ?_⟩
        · intro x hx
          rcases List.mem_cons.1 hx with rfl | hx
          · exact ht.2
          · exact h4 x hx
        · simp only [List.length_append, List.length_singleton] at h5
          omega
        · intro x hx hl hn
          rcases List.mem_cons.1 hx with rfl | hx
          · exact absurd hin hn
          · exact h6 x hx hl hn
        · intro R hR x hx hl hn y hy
          rw [List.pairwise_cons] at hR
          rcases List.mem_cons.1 hx with rfl | hx'
          · exact absurd hin hn
          · rcases List.mem_cons.1 hy with rfl | hy
            · exact hR.1 x hx'
            · exact h7 R hR.2 x hx' hl hn y hy
      · rw [if_neg ht]
        obtain ⟨taken, h1, h2, h3, h4, h5, h6, h7⟩ := ih acc h
        have hskip : (enc e.1).length > 1 → enc e.1 ∈ (loop size l acc).seen := by
          intro hl
          have : enc e.1 ∈ acc.seen := by
            by_contra hn
            exact ht ⟨hn, hl⟩
          rw [h3.1, h2, List.map_append, List.mem_append, ← h.1]
          exact Or.inl this
        refine ⟨taken, h1.cons _, h2, h3, h4, h5, ?_, ?_⟩
        · intro x hx hl hn
          rcases List.mem_cons.1 hx with rfl | hx
          · exact absurd (hskip hl) hn
          · exact h6 x hx hl hn
        · intro R hR x hx hl hn y hy
          rw [List.pairwise_cons] at hR
          rcases List.mem_cons.1 hx with rfl | hx
          · exact absurd (hskip hl) hn
          · exact h7 R hR.2 x hx hl hn y hy

omit [TrainOps F] in
theorem ofNat_byte (b : UInt8) : UInt8.ofNat b.toNat = b := UInt8.ofNat_toNat

theorem bytes_consistent (highest : Nat) : Consistent (bytes highest : Acc F) := by
  refine ⟨by simp [bytes], ?_⟩
  unfold bytes
  refine List.Nodup.map_on ?_ List.nodup_range
  intro a ha b hb e
  simp only [List.cons.injEq, and_true] at e
  have := congrArg UInt8.toNat e
  rw [List.mem_range] at ha hb
  simp only [UInt8.toNat_ofNat'] at this
  omega

theorem bytes_mem (highest : Nat) (t : ScoredToken F) :
    t ∈ (bytes highest : Acc F).vocab ↔ ∃ b : UInt8, b ≠ 255 ∧ t = ⟨[b], ofNat highest, true⟩ := by
  unfold bytes
  simp only [List.mem_map, List.mem_range]
  constructor
  · rintro ⟨n, hn, rfl⟩
    refine ⟨UInt8.ofNat n, ?_, rfl⟩
    intro e
    have := congrArg UInt8.toNat e
    simp only [UInt8.toNat_ofNat'] at this
    have h255 : (255 : UInt8).toNat = 255 := rfl
    omega
  · rintro ⟨b, hb, rfl⟩
    refine ⟨b.toNat, ?_, by rw [UInt8.ofNat_toNat]⟩
    have h1 := b.toNat_lt
    have : b.toNat ≠ 255 := by
      intro e
      apply hb
      rw [← UInt8.ofNat_toNat (x := b), e]
      rfl
    omega

/-- The items in the order in which `generate` considers them. -/
def items (g : Generator F) (frequent : List (Str × Nat)) : List Item :=
  g.addedTokens.map (fun t => (t, frequency g t, true)) ++
    (g.suggestedTokens.map (fun t => (t, frequency g t, false)) ++ frequent.map fun e => (e.1, e.2, false))

/-- `generate`, if it does not panic at the end. -/
theorem generateFrom_eq (g : Generator F) (byFreq : Sorter (Str × Nat)) (byScore : Sorter (ScoredToken F)) (size : Nat)
    (entries : List (Str × Nat)) (h : ∀ t, t ∈ g.addedTokens ∨ t ∈ g.suggestedTokens → t ∈ g.frequencies.map (·.1)) :
    let frequent := byFreq.run (fun a b => compare b.2 a.2) entries
    let acc : Acc F := loop size (items g frequent) (bytes ((frequent.head?.map (·.2)).getD 1))
    let vocab := logprobs (byScore.run (fun a b => ((partialCmp a.score b.score).getD .eq).swap) acc.vocab)
    g.generateFrom byFreq byScore size entries =
      if vocab.all (fun t => TrainOps.isNormal t.score) then .ok vocab else .error .panic := by
  intro frequent acc vocab
  unfold generateFrom
  dsimp only
  rw [addListed_loop]
  · simp only [res_bind_ok, res_pure]
    rw [addFrequent_loop, ← loop_append, List.map_append, List.map_map, List.map_map, List.append_assoc]
    rfl
  · intro e he
    rw [List.mem_append] at he
    rw [← FreqTable.mem_keys_iff]
    apply h
    rcases he with he | he
    · obtain ⟨t, ht, rfl⟩ := List.mem_map.1 he
      exact Or.inl ht
    · obtain ⟨t, ht, rfl⟩ := List.mem_map.1 he
      exact Or.inr ht

/-- One stage of `generate`: what `loop` takes from a list. -/
structure Stage (size : Nat) (l : List Item) (acc acc' : Acc F) (taken : List Item) : Prop where
  sub : ∀ e ∈ taken, e ∈ l
  vocab : acc'.vocab = acc.vocab ++ taken.map Item.token
  cons : Consistent acc'
  long : ∀ e ∈ taken, (enc e.1).length > 1
  len : acc'.vocab.length ≤ max acc.vocab.length size
  all : ∀ e ∈ l, (enc e.1).length > 1 → enc e.1 ∉ acc'.seen → size ≤ acc'.vocab.length
  order : ∀ R : Item → Item → Prop, l.Pairwise R →
    ∀ e ∈ l, (enc e.1).length > 1 → enc e.1 ∉ acc'.seen → ∀ e' ∈ taken, R e' e
  fresh : ∀ e ∈ taken, enc e.1 ∉ acc.seen ∧ acc.vocab.length < size

theorem stage (size : Nat) (l : List Item) (acc : Acc F) (h : Consistent acc) :
    ∃ taken, Stage size l acc (loop size l acc) taken := by
  obtain ⟨taken, h1, h2, h3, h4, h5, h6, h7⟩ := loop_facts size l acc h
  refine ⟨taken, fun e he => h1.subset he, h2, h3, h4, h5, h6, h7, ?_⟩
  intro e he
  constructor
  · have hn := h3.2
    rw [h3.1, h2, List.map_append, List.nodup_append] at hn
    intro hin
    rw [h.1] at hin
    refine hn.2.2 _ hin (enc e.1) ?_ rfl
    rw [List.map_map]
    exact List.mem_map.2 ⟨e, he, rfl⟩
  · by_contra hf
    rw [loop_full _ _ _ (by omega)] at h2
    have : taken.map (Item.token (F := F)) = [] := by
      have := congrArg List.length h2
      rw [List.length_append] at this
      exact List.length_eq_zero_iff.1 (by omega)
    rw [List.map_eq_nil_iff] at this
    rw [this] at he
    simp at he

theorem Stage.seen {size : Nat} {l : List Item} {acc acc' : Acc F} {taken : List Item} (h : Stage size l acc acc' taken)
    (hc : Consistent acc) {v : Token} (hv : v ∈ acc.seen) : v ∈ acc'.seen := by
  rw [h.cons.1, h.vocab, List.map_append, List.mem_append, ← hc.1]
  exact Or.inl hv

theorem Stage.grows {size : Nat} {l : List Item} {acc acc' : Acc F} {taken : List Item} (h : Stage size l acc acc' taken) :
    acc.vocab.length ≤ acc'.vocab.length := by
  rw [h.vocab, List.length_append]; omega

/-- The shape of a generated vocabulary: bytes, then added, suggested and frequent strings, sorted and rescored. -/
theorem generateFrom_shape {max : Nat} {prob : F} {split : Option (Str → List Str)} {allow : Option (Str → Bool)}
    {added suggested fed : List Str} {g : Generator F} (h : Fed max prob split allow added suggested fed g)
    {byFreq : Sorter (Str × Nat)} (hf : SortLaws byFreq) {byScore : Sorter (ScoredToken F)} (hs : SortLaws byScore)
    {size : Nat} {entries : List (Str × Nat)} (hp : entries.Perm g.frequencies) :
    ∃ (frequent : List (Str × Nat)) (sorted : List (ScoredToken F)) (acc₁ acc₂ acc₃ : Acc F) (t₁ t₂ t₃ : List Item),
      frequent.Perm g.frequencies ∧ frequent.Pairwise (fun a b => b.2 ≤ a.2) ∧
      Stage size (added.map fun t => (t, frequency g t, true)) (bytes ((frequent.head?.map (·.2)).getD 1)) acc₁ t₁ ∧
      Stage size (suggested.map fun t => (t, frequency g t, false)) acc₁ acc₂ t₂ ∧
      Stage size (frequent.map fun e => (e.1, e.2, false)) acc₂ acc₃ t₃ ∧
      sorted = byScore.run (fun a b => ((partialCmp a.score b.score).getD .eq).swap) acc₃.vocab ∧
      sorted.Perm acc₃.vocab ∧
      g.generateFrom byFreq byScore size entries =
        if (logprobs sorted).all (fun t => TrainOps.isNormal t.score) then .ok (logprobs sorted) else .error .panic := by
  obtain ⟨sels, _, _, _, hkeys, hconf⟩ := fed_facts h
  have hadd : g.addedTokens = added := by rw [hconf]; rfl
  have hsug : g.suggestedTokens = suggested := by rw [hconf]; rfl
  have := generateFrom_eq g byFreq byScore size entries (by
    intro t ht
    rw [hkeys, ← hadd, ← hsug]
    tauto)
  dsimp only at this
  rw [this]
  obtain ⟨p1, p2⟩ := sort_counts hf entries
  generalize byFreq.run (fun a b => compare b.2 a.2) entries = frequent at *
  unfold items
  rw [loop_append, loop_append, hadd, hsug]
  obtain ⟨t₁, s₁⟩ := stage size (added.map fun t => (t, frequency g t, true)) _
    (bytes_consistent (F := F) ((frequent.head?.map (·.2)).getD 1))
  obtain ⟨t₂, s₂⟩ := stage size (suggested.map fun t => (t, frequency g t, false)) _ s₁.cons
  obtain ⟨t₃, s₃⟩ := stage size (frequent.map fun e => (e.1, e.2, false)) _ s₂.cons
  exact ⟨frequent, _, _, _, _, t₁, t₂, t₃, p1.trans hp, p2, s₁, s₂, s₃, rfl, (hs _ _).1, rfl⟩

theorem generate_shape {max : Nat} {prob : F} {split : Option (Str → List Str)} {allow : Option (Str → Bool)}
    {added suggested fed : List Str} {g : Generator F} (h : Fed max prob split allow added suggested fed g)
    {byFreq : Sorter (Str × Nat)} (hf : SortLaws byFreq) {byScore : Sorter (ScoredToken F)} (hs : SortLaws byScore)
    {size : Nat} {w : List (ScoredToken F)} (hg : Generate g byFreq byScore size w) :
    ∃ (frequent : List (Str × Nat)) (sorted : List (ScoredToken F)) (acc₁ acc₂ acc₃ : Acc F) (t₁ t₂ t₃ : List Item),
      frequent.Perm g.frequencies ∧ frequent.Pairwise (fun a b => b.2 ≤ a.2) ∧
      Stage size (added.map fun t => (t, frequency g t, true)) (bytes ((frequent.head?.map (·.2)).getD 1)) acc₁ t₁ ∧
      Stage size (suggested.map fun t => (t, frequency g t, false)) acc₁ acc₂ t₂ ∧
      Stage size (frequent.map fun e => (e.1, e.2, false)) acc₂ acc₃ t₃ ∧
      sorted = byScore.run (fun a b => ((partialCmp a.score b.score).getD .eq).swap) acc₃.vocab ∧
      sorted.Perm acc₃.vocab ∧ w = logprobs sorted ∧ ∀ t ∈ w, TrainOps.isNormal t.score = true := by
  obtain ⟨entries, hp, hw⟩ := hg
  obtain ⟨frequent, sorted, acc₁, acc₂, acc₃, t₁, t₂, t₃, e1, e2, e3, e4, e5, e6, e7, e8⟩ :=
    generateFrom_shape h hf hs (size := size) hp
  refine ⟨frequent, sorted, acc₁, acc₂, acc₃, t₁, t₂, t₃, e1, e2, e3, e4, e5, e6, e7, ?_⟩
  rw [e8] at hw
  by_cases hall : (logprobs sorted).all (fun t => TrainOps.isNormal t.score) = true
  · rw [if_pos hall] at hw
    simp only [Except.ok.injEq] at hw
    refine ⟨hw.symm, ?_⟩
    rw [← hw]
    intro t ht
    exact List.all_eq_true.1 hall t ht
  · rw [if_neg hall] at hw
    simp at hw

theorem logprobs_length (l : List (ScoredToken F)) : (logprobs l).length = l.length := by
  unfold logprobs; simp

theorem logprobs_map {β : Type} (l : List (ScoredToken F)) (f : Token → Bool → β) :
    (logprobs l).map (fun t => f t.value t.keep) = l.map (fun t => f t.value t.keep) := by
  unfold logprobs
  dsimp only
  rw [List.map_map]
  rfl

end Tokengeex.Generator

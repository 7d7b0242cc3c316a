import Verif.Proofs.Generate
import Verif.Props.Prune
/-
Properties of vocabulary generation: C44, C45, C46, C67.
-/
namespace Tokengeex
open Spec Parallel ScoreOps RealOps Generator

variable {F : Type} [TrainOps F]

/-! ### C46 -/

/-- **C46** `feed` returns, for every chunking, schedule, hash function and random outcome; and whenever it returns, only
counts have changed, and the count of every string has grown by the number of samples that took it, where a sample takes
each string at most once and takes candidates only. -/
theorem C46_feed (g : Generator F) (shard : Str → Nat) (samples : List Str) :
    ((∃ x : F, le zero x = true ∧ lt x (ofNat 1) = true) → ∃ g', Feed g shard samples g') ∧
    ∀ g', Feed g shard samples g' →
      g' = { g with frequencies := g'.frequencies } ∧
      ∃ sels : List (List Str), List.Forall₂ (fun s sel => ∀ t ∈ sel, Candidate g s t) samples sels ∧
        ∀ t, frequency g' t = frequency g t + sels.countP (fun sel => decide (t ∈ sel)) := by
  constructor
  · rintro ⟨x, hx⟩
    obtain ⟨val, hv⟩ := parCount_exists (Worker := Generator.Worker g shard) shard 1 (by omega) samples (by
      intro chunk _
      have hw : Generator.Worker g shard chunk ((chunkTokens g (fun _ => x) 0 chunk).flatMap fun tokens =>
          shardedAdds shard (tokens.map fun t => (t, 1))) :=
        ⟨fun _ => x, _, fun _ => hx, List.forall₂_same.2 (fun _ _ => .refl _), rfl⟩
      exact ⟨_, hw, (worker_facts hw).1⟩)
    obtain ⟨sels, _, h2⟩ := parCount_choice shard (Taken g) (fun k (sel : List Str) => sel.count k)
      (fun c p hp => worker_facts hp) hv
    obtain ⟨entries, he⟩ := iteration_exists val sels.flatten (by
      intro k hk
      by_contra hn
      apply hk
      rw [h2]
      refine List.sum_eq_zero ?_
      intro n hn'
      obtain ⟨sel, hs, rfl⟩ := List.mem_map.1 hn'
      rw [List.count_eq_zero]
      intro hin
      exact hn (List.mem_flatten.2 ⟨sel, hs, hin⟩))
    exact ⟨_, val, entries, hv, he, rfl⟩
  · intro g' h
    obtain ⟨sels, h1, h2, _, _, h5⟩ := feed_facts h
    exact ⟨h5, sels, h1.imp fun _ _ h => h.sound, h2⟩

open Classical in
/-- **C46** (probability 1) Over any number of calls, for every chunking, schedule and random outcome, the count of a string
is the number of times it was listed as added or suggested plus the number of samples of which it is a candidate. -/
theorem C46_exact (max : Nat) (split : Option (Str → List Str)) (allow : Option (Str → Bool))
    (added suggested fed : List Str) (g : Generator F) (h : Fed max (ofNat 1) split allow added suggested fed g) (t : Str) :
    frequency g t = added.count t + suggested.count t + fed.countP (fun s => decide (Candidate g s t)) := by
  obtain ⟨sels, h1, h2, _, h4, h5⟩ := fed_facts h
  rw [h2, h5]
  congr 1
  clear h2 h4 h5 h
  induction h1 with
  | nil => rfl
  | @cons s sel _ _ h1 _ ih =>
    rw [List.countP_cons, List.countP_cons, ih]
    have : (t ∈ sel) ↔ Candidate (Generator.new max (ofNat 1 : F) split allow added suggested) s t :=
      ⟨h1.sound t, h1.complete rfl t⟩
    congr 1
    simp only [decide_eq_true_eq]
    exact if_congr this rfl rfl

/-! ### C44 -/

/-- **C44** Whatever has been fed, every vocabulary that `generate` returns has at most `max 255 size` entries, no two with
the same bytes; it has every byte below 255 as a protected token; every other entry is an added string, a suggested string
or a candidate of a sample, longer than one byte; exactly the bytes and the added strings are protected. -/
theorem C44_generate (max' : Nat) (prob : F) (split : Option (Str → List Str)) (allow : Option (Str → Bool))
    (added suggested fed : List Str) (g : Generator F) (h : Fed max' prob split allow added suggested fed g)
    (byFreq : Sorter (Str × Nat)) (hf : SortLaws byFreq) (byScore : Sorter (ScoredToken F)) (hs : SortLaws byScore)
    (size : Nat) (w : List (ScoredToken F)) (hg : Generate g byFreq byScore size w) :
    w.length ≤ max 255 size ∧ NoDuplicates w ∧
    (∀ b : UInt8, b ≠ 255 → ∃ t ∈ w, t.value = [b] ∧ t.keep = true) ∧
    (∀ t ∈ w, (∃ b : UInt8, b ≠ 255 ∧ t.value = [b]) ∨
      (1 < t.value.length ∧ ∃ s, enc s = t.value ∧ (s ∈ added ∨ s ∈ suggested ∨ ∃ x ∈ fed, Candidate g x s))) ∧
    (∀ t ∈ w, t.keep = true ↔ t.value.length = 1 ∨ ∃ s ∈ added, enc s = t.value) := by
  obtain ⟨frequent, sorted, acc₁, acc₂, acc₃, t₁, t₂, t₃, hp, _, s₁, s₂, s₃, _, hperm, rfl, _⟩ := generate_shape h hf hs hg
  obtain ⟨sels, hsel, _, hnd, hkeys, hconf⟩ := fed_facts h
  have hvk : ∀ t ∈ logprobs sorted, ∃ u ∈ acc₃.vocab, u.value = t.value ∧ u.keep = t.keep := by
    intro t ht
    have : (t.value, t.keep) ∈ (logprobs sorted).map (fun t => (t.value, t.keep)) := List.mem_map.2 ⟨t, ht, rfl⟩
    rw [logprobs_map sorted Prod.mk] at this
    obtain ⟨u, hu, e⟩ := List.mem_map.1 this
    simp only [Prod.mk.injEq] at e
    exact ⟨u, hperm.subset hu, e⟩
  have hkv : ∀ u ∈ acc₃.vocab, ∃ t ∈ logprobs sorted, t.value = u.value ∧ t.keep = u.keep := by
    intro u hu
    have : (u.value, u.keep) ∈ sorted.map (fun t => (t.value, t.keep)) := List.mem_map.2 ⟨u, hperm.symm.subset hu, rfl⟩
    rw [← logprobs_map sorted Prod.mk] at this
    obtain ⟨t, ht, e⟩ := List.mem_map.1 this
    simp only [Prod.mk.injEq] at e
    exact ⟨t, ht, e⟩
  have hmem : ∀ u, u ∈ acc₃.vocab ↔ u ∈ (bytes ((frequent.head?.map (·.2)).getD 1) : Acc F).vocab ∨
      u ∈ t₁.map Item.token ∨ u ∈ t₂.map Item.token ∨ u ∈ t₃.map Item.token := by
    intro u
    rw [s₃.vocab, s₂.vocab, s₁.vocab]
    simp only [List.mem_append]
    tauto
  have hbl : (bytes ((frequent.head?.map (·.2)).getD 1) : Acc F).vocab.length = 255 := by simp [bytes]
  -- an added string is taken in the first stage, or nothing is taken later
  have hfirst : ∀ s ∈ added, (enc s).length > 1 → enc s ∈ acc₁.seen ∨ size ≤ acc₁.vocab.length := by
    intro s hs' hl
    by_cases hin : enc s ∈ acc₁.seen
    · exact Or.inl hin
    · exact Or.inr (s₁.all _ (List.mem_map.2 ⟨s, hs', rfl⟩) hl hin)
  have hnot₂ : ∀ e ∈ t₂, ∀ s ∈ added, enc s ≠ enc e.1 := by
    intro e he s hs' heq
    have hl := s₂.long e he
    rw [← heq] at hl
    obtain ⟨f1, f2⟩ := s₂.fresh e he
    rcases hfirst s hs' hl with h' | h'
    · rw [heq] at h'; exact f1 h'
    · omega
  have hnot₃ : ∀ e ∈ t₃, ∀ s ∈ added, enc s ≠ enc e.1 := by
    intro e he s hs' heq
    have hl := s₃.long e he
    rw [← heq] at hl
    obtain ⟨f1, f2⟩ := s₃.fresh e he
    rcases hfirst s hs' hl with h' | h'
    · rw [heq] at h'; exact f1 (s₂.seen s₁.cons h')
    · have := s₂.grows; omega
  refine ⟨?_, ?_, ?_, ?_, ?_⟩
  · rw [logprobs_length, hperm.length_eq]
    have e1 := s₁.len
    have e2 := s₂.len
    have e3 := s₃.len
    rw [hbl] at e1
    omega
  · unfold NoDuplicates
    rw [logprobs_map sorted (fun v _ => v)]
    have := s₃.cons.2
    rw [s₃.cons.1] at this
    exact (hperm.map _).nodup_iff.2 this
  · intro b hb
    obtain ⟨t, ht, e1, e2⟩ := hkv ⟨[b], _, true⟩ ((hmem _).2 (Or.inl ((bytes_mem _ _).2 ⟨b, hb, rfl⟩)))
    exact ⟨t, ht, e1, e2⟩
  · intro t ht
    obtain ⟨u, hu, e1, _⟩ := hvk t ht
    rw [← e1]
    rcases (hmem u).1 hu with hu | hu | hu | hu
    · obtain ⟨b, hb, rfl⟩ := (bytes_mem _ _).1 hu
      exact Or.inl ⟨b, hb, rfl⟩
    · obtain ⟨e, he, rfl⟩ := List.mem_map.1 hu
      obtain ⟨s, hs', e2⟩ := List.mem_map.1 (s₁.sub e he)
      exact Or.inr ⟨s₁.long e he, e.1, rfl, Or.inl (by rw [← e2]; exact hs')⟩
    · obtain ⟨e, he, rfl⟩ := List.mem_map.1 hu
      obtain ⟨s, hs', e2⟩ := List.mem_map.1 (s₂.sub e he)
      exact Or.inr ⟨s₂.long e he, e.1, rfl, Or.inr (Or.inl (by rw [← e2]; exact hs'))⟩
    · obtain ⟨e, he, rfl⟩ := List.mem_map.1 hu
      obtain ⟨s, hs', e2⟩ := List.mem_map.1 (s₃.sub e he)
      refine Or.inr ⟨s₃.long e he, e.1, rfl, ?_⟩
      have : e.1 ∈ g.frequencies.map (·.1) := by
        rw [← e2]
        exact List.mem_map.2 ⟨s, hp.subset hs', rfl⟩
      rcases (hkeys _).1 this with h' | h' | ⟨sel, h', h''⟩
      · exact Or.inl h'
      · exact Or.inr (Or.inl h')
      · obtain ⟨i, hi⟩ := List.mem_iff_getElem?.1 h'
        have hlen := hsel.length_eq
        obtain ⟨hi', hi''⟩ := List.getElem?_eq_some_iff.1 hi
        have := hsel.get (by rw [hlen]; exact hi') hi'
        rw [List.get_eq_getElem, List.get_eq_getElem, hi''] at this
        refine Or.inr (Or.inr ⟨_, List.getElem_mem (by rw [hlen]; exact hi'), ?_⟩)
        rw [hconf]
        exact this.sound _ h''
  · intro t ht
    obtain ⟨u, hu, e1, e2⟩ := hvk t ht
    rw [← e1, ← e2]
    rcases (hmem u).1 hu with hu | hu | hu | hu
    · obtain ⟨b, hb, rfl⟩ := (bytes_mem _ _).1 hu
      simp
    · obtain ⟨e, he, rfl⟩ := List.mem_map.1 hu
      obtain ⟨s, hs', e2⟩ := List.mem_map.1 (s₁.sub e he)
      rw [← e2]
      simp only [Item.token, true_iff]
      exact Or.inr ⟨s, hs', rfl⟩
    · obtain ⟨e, he, rfl⟩ := List.mem_map.1 hu
      obtain ⟨s, hs', e2⟩ := List.mem_map.1 (s₂.sub e he)
      have hl := s₂.long e he
      have hk : e.2.2 = false := by rw [← e2]
      simp only [Item.token, hk, Bool.false_eq_true, false_iff, not_or, not_exists, not_and]
      exact ⟨by omega, hnot₂ e he⟩
    · obtain ⟨e, he, rfl⟩ := List.mem_map.1 hu
      obtain ⟨s, hs', e2⟩ := List.mem_map.1 (s₃.sub e he)
      have hl := s₃.long e he
      have hk : e.2.2 = false := by rw [← e2]
      simp only [Item.token, hk, Bool.false_eq_true, false_iff, not_or, not_exists, not_and]
      exact ⟨by omega, hnot₃ e he⟩

/-- **C67** What `generate` leaves out: a string of more than one byte that was added, suggested or counted is left out only
if the vocabulary is full.  A vocabulary without some added string has bytes and added strings only; one without some
suggested string has bytes, added and suggested strings only; and no counted string that is left out has a higher count
than a string that is in the vocabulary merely because it was counted. -/
theorem C67_greedy (max' : Nat) (prob : F) (split : Option (Str → List Str)) (allow : Option (Str → Bool))
    (added suggested fed : List Str) (g : Generator F) (h : Fed max' prob split allow added suggested fed g)
    (byFreq : Sorter (Str × Nat)) (hf : SortLaws byFreq) (byScore : Sorter (ScoredToken F)) (hs : SortLaws byScore)
    (size : Nat) (w : List (ScoredToken F)) (hg : Generate g byFreq byScore size w)
    (s : Str) (hlong : 1 < (enc s).length) (hcount : 0 < frequency g s) (hout : ∀ t ∈ w, t.value ≠ enc s) :
    w.length = max 255 size ∧
    (∀ t ∈ w, ∀ s', t.value = enc s' → 1 < t.value.length →
      s' ∈ added ∨ (s ∉ added ∧ s' ∈ suggested) ∨ (s ∉ added ∧ s ∉ suggested ∧ frequency g s ≤ frequency g s')) := by
  have hlen := (C44_generate max' prob split allow added suggested fed g h byFreq hf byScore hs size w hg).1
  obtain ⟨frequent, sorted, acc₁, acc₂, acc₃, t₁, t₂, t₃, hp, hsorted, s₁, s₂, s₃, _, hperm, rfl, _⟩ := generate_shape h hf hs hg
  obtain ⟨sels, hsel, _, hnd, hkeys, hconf⟩ := fed_facts h
  have hvals : (logprobs sorted).map (·.value) = sorted.map (·.value) := logprobs_map sorted (fun v _ => v)
  have hseen : ∀ v, v ∈ acc₃.seen ↔ ∃ t ∈ logprobs sorted, t.value = v := by
    intro v
    rw [s₃.cons.1]
    constructor
    · intro hv
      have := ((hperm.map (·.value)).symm.subset hv)
      rw [← hvals] at this
      exact List.mem_map.1 this
    · rintro ⟨t, ht, rfl⟩
      have : t.value ∈ sorted.map (·.value) := by
        rw [← hvals]; exact List.mem_map.2 ⟨t, ht, rfl⟩
      exact (hperm.map (·.value)).subset this
  have hout₃ : enc s ∉ acc₃.seen := by
    rw [hseen]
    rintro ⟨t, ht, e⟩
    exact hout t ht e
  have hout₂ : enc s ∉ acc₂.seen := fun h' => hout₃ (s₃.seen s₂.cons h')
  have hout₁ : enc s ∉ acc₁.seen := fun h' => hout₂ (s₂.seen s₁.cons h')
  have hbl : (bytes ((frequent.head?.map (·.2)).getD 1) : Acc F).vocab.length = 255 := by simp [bytes]
  have hw : (logprobs sorted).length = acc₃.vocab.length := by rw [logprobs_length, hperm.length_eq]
  have g1 := s₁.grows
  have g2 := s₂.grows
  have g3 := s₃.grows
  have hfreq : ∀ t n, (t, n) ∈ frequent ↔ n = frequency g t ∧ 0 < n := by
    intro t n
    have e : (t, n) ∈ frequent ↔ (t, n) ∈ g.frequencies := ⟨fun h => hp.subset h, fun h => hp.symm.subset h⟩
    rw [e, FreqTable.mem_iff_get? hnd]
    have hk := fed_positive h t
    rw [FreqTable.mem_keys_iff] at hk
    unfold frequency at hk ⊢
    cases hget : FreqTable.get? g.frequencies t with
    | none => simp only [Option.getD_none]; constructor <;> intro h' <;> simp at h' ⊢; omega
    | some m =>
      rw [hget] at hk
      have hm := hk.1 ⟨m, rfl⟩
      simp only [Option.getD_some] at hm ⊢
      constructor
      · intro h'
        obtain rfl := Option.some.inj h'
        exact ⟨rfl, hm⟩
      · rintro ⟨rfl, _⟩
        rfl
  have hin : (s, frequency g s) ∈ frequent := (hfreq _ _).2 ⟨rfl, hcount⟩
  have hfull : size ≤ acc₃.vocab.length :=
    s₃.all (s, frequency g s, false) (List.mem_map.2 ⟨_, hin, rfl⟩) hlong hout₃
  refine ⟨by omega, ?_⟩
  intro t ht s' hs' hl
  have : t.value ∈ acc₃.seen := (hseen _).2 ⟨t, ht, rfl⟩
  rw [s₃.cons.1, s₃.vocab, s₂.vocab, s₁.vocab] at this
  simp only [List.map_append, List.map_map, List.mem_append] at this
  rcases this with ((hb | h₁) | h₂) | h₃
  · obtain ⟨u, hu, e⟩ := List.mem_map.1 hb
    obtain ⟨b, _, rfl⟩ := (bytes_mem _ _).1 hu
    rw [← e] at hl
    simp at hl
  · obtain ⟨e, he, e1⟩ := List.mem_map.1 h₁
    obtain ⟨x, hx, e2⟩ := List.mem_map.1 (s₁.sub e he)
    have : e.1 = s' := enc_injective (by rw [← hs', ← e1]; rfl)
    left
    rw [← this, ← e2]
    exact hx
  · obtain ⟨e, he, e1⟩ := List.mem_map.1 h₂
    obtain ⟨x, hx, e2⟩ := List.mem_map.1 (s₂.sub e he)
    have : e.1 = s' := enc_injective (by rw [← hs', ← e1]; rfl)
    right; left
    refine ⟨?_, by rw [← this, ← e2]; exact hx⟩
    intro hadd
    have := s₁.all _ (List.mem_map.2 ⟨s, hadd, rfl⟩) hlong hout₁
    have := (s₂.fresh e he).2
    omega
  · obtain ⟨e, he, e1⟩ := List.mem_map.1 h₃
    obtain ⟨x, hx, e2⟩ := List.mem_map.1 (s₃.sub e he)
    have hes : e.1 = s' := enc_injective (by rw [← hs', ← e1]; rfl)
    right; right
    have hlt := (s₃.fresh e he).2
    refine ⟨?_, ?_, ?_⟩
    · intro hadd
      have := s₁.all _ (List.mem_map.2 ⟨s, hadd, rfl⟩) hlong hout₁
      omega
    · intro hsug
      have := s₂.all _ (List.mem_map.2 ⟨s, hsug, rfl⟩) hlong hout₂
      omega
    · have hR := s₃.order (fun a b => b.2.1 ≤ a.2.1) (by
        rw [List.pairwise_map]
        exact hsorted) (s, frequency g s, false) (List.mem_map.2 ⟨_, hin, rfl⟩) hlong hout₃ e he
      have hx' := ((hfreq x.1 x.2).1 hx).1
      rw [← e2] at hR hes
      simp only at hR hes
      rw [hx', hes] at hR
      exact hR

/-! ### C45 -/

theorem foldl_add_real (l : List (ScoredToken ℝ)) (x : ℝ) :
    l.foldl (fun acc t => add acc t.score) x = x + (l.map (·.score)).sum := by
  induction l generalizing x with
  | nil => simp
  | cons t l ih =>
    rw [List.foldl_cons, ih, List.map_cons, List.sum_cons]
    show x + t.score + _ = _
    ring

theorem sum_pos_of_mem {l : List ℝ} (h : ∀ x ∈ l, 0 < x) : 0 ≤ l.sum := List.sum_nonneg fun x hx => (h x hx).le

theorem lt_sum_of_mem {l : List ℝ} (h : ∀ x ∈ l, 0 < x) (h2 : 2 ≤ l.length) {x : ℝ} (hx : x ∈ l) : x < l.sum := by
  obtain ⟨a, b, rfl⟩ := List.append_of_mem hx
  rw [List.sum_append, List.sum_cons]
  have ha := sum_pos_of_mem (l := a) fun y hy => h y (by simp [hy])
  have hb := sum_pos_of_mem (l := b) fun y hy => h y (by simp [hy])
  cases a with
  | cons y a =>
    have h1 := h y (by simp)
    have h3 := sum_pos_of_mem (l := a) fun y hy => h y (by simp [hy])
    rw [List.sum_cons]
    linarith
  | nil =>
    cases b with
    | nil => simp at h2
    | cons y b =>
      have h1 := h y (by simp)
      have h3 := sum_pos_of_mem (l := b) fun y hy => h y (by simp [hy])
      rw [List.sum_cons]
      simp only [List.sum_nil]
      linarith

theorem swap_partialCmp {F : Type} [ScoreOps F] (a b : F) :
    ((partialCmp a b).getD .eq).swap = (partialCmp b a).getD .eq := by
  unfold partialCmp
  cases le a b <;> cases le b a <;> rfl

theorem generateFrom_real {max' : Nat} {prob : ℝ} {split : Option (Str → List Str)} {allow : Option (Str → Bool)}
    {added suggested fed : List Str} {g : Generator ℝ} (h : Fed max' prob split allow added suggested fed g)
    {byFreq : Sorter (Str × Nat)} (hf : SortLaws byFreq) {byScore : Sorter (ScoredToken ℝ)} (hs : SortLaws byScore)
    (size : Nat) (entries : List (Str × Nat)) (hp : entries.Perm g.frequencies) :
    ∃ w, g.generateFrom byFreq byScore size entries = .ok w ∧
      (∀ t ∈ w, t.score < 0) ∧ (w.map fun t => Real.exp t.score).sum = 1 ∧ ScoreSorted w ∧
      ∃ (S : ℝ) (M : ℕ), 0 < S ∧ (∀ s, frequency g s ≤ M) ∧
        ((∃ s, 0 < frequency g s ∧ frequency g s = M) ∨ (M = 1 ∧ ∀ s, frequency g s = 0)) ∧
        ∀ t ∈ w, (t.value.length = 1 → Real.exp t.score = M / S) ∧
          ∀ s, t.value = enc s → 1 < t.value.length → Real.exp t.score = frequency g s * t.value.length / S := by
  obtain ⟨frequent, sorted, acc₁, acc₂, acc₃, t₁, t₂, t₃, hp, hsorted, s₁, s₂, s₃, hrun, hperm, hgen⟩ :=
    generateFrom_shape h hf hs (size := size) hp
  obtain ⟨sels, hsel, _, hnd, hkeys, hconf⟩ := fed_facts h
  have hget : ∀ e ∈ frequent, e.2 = frequency g e.1 ∧ 0 < e.2 := by
    intro e he
    have h1 : (e.1, e.2) ∈ g.frequencies := hp.subset he
    have h2 := (fed_positive h e.1).1 (List.mem_map.2 ⟨_, h1, rfl⟩)
    rw [FreqTable.mem_iff_get? hnd] at h1
    unfold frequency at h2 ⊢
    rw [h1] at h2 ⊢
    exact ⟨rfl, h2⟩
  have hin : ∀ s, 0 < frequency g s → (s, frequency g s) ∈ frequent := by
    intro s hs'
    obtain ⟨e, he, he'⟩ := List.mem_map.1 ((fed_positive h s).2 hs')
    have he2 := hp.symm.subset he
    have := (hget e he2).1
    rw [← he', ← this]
    exact he2
  -- the highest count
  obtain ⟨M, hM⟩ : ∃ M, M = (frequent.head?.map (·.2)).getD 1 := ⟨_, rfl⟩
  have hMpos : 0 < M ∧ (∀ s, frequency g s ≤ M) ∧
      ((∃ s, 0 < frequency g s ∧ frequency g s = M) ∨ (M = 1 ∧ ∀ s, frequency g s = 0)) := by
    cases hfr : frequent with
    | nil =>
      rw [hfr] at hM hin
      simp only [List.head?_nil, Option.map_none, Option.getD_none] at hM
      have h0 : ∀ s, frequency g s = 0 := by
        intro s
        by_contra hn
        exact absurd (hin s (by omega)) (by simp)
      exact ⟨by omega, fun s => by rw [h0]; omega, Or.inr ⟨hM, h0⟩⟩
    | cons e rest =>
      rw [hfr] at hM hin hsorted hget
      simp only [List.head?_cons, Option.map_some, Option.getD_some] at hM
      have he := hget e (List.mem_cons_self ..)
      refine ⟨by omega, ?_, Or.inl ⟨e.1, by omega, by omega⟩⟩
      intro s
      by_cases h0 : 0 < frequency g s
      · rcases List.mem_cons.1 (hin s h0) with h' | h'
        · rw [hM, ← h']
        · have := (List.pairwise_cons.1 hsorted).1 _ h'
          simp only at this
          omega
      · omega
  rw [← hM] at s₁
  -- the weight of each token
  have hweight : ∀ u ∈ acc₃.vocab, 0 < u.score ∧ (u.value.length = 1 → u.score = M) ∧
      ∀ s, u.value = enc s → 1 < u.value.length → u.score = frequency g s * u.value.length := by
    intro u hu
    have hitem : ∀ e : Item, e.2.1 = frequency g e.1 → 0 < e.2.1 → (enc e.1).length > 1 → u = Item.token e →
        0 < u.score ∧ (u.value.length = 1 → u.score = M) ∧
        ∀ s, u.value = enc s → 1 < u.value.length → u.score = frequency g s * u.value.length := by
      rintro e h1 h2 h3 rfl
      have hsc : (Item.token e : ScoredToken ℝ).score = ((e.2.1 * (enc e.1).length : ℕ) : ℝ) := rfl
      have hv : (Item.token e : ScoredToken ℝ).value = enc e.1 := rfl
      rw [hsc, hv]
      refine ⟨by exact_mod_cast Nat.mul_pos h2 (by omega), fun h' => by omega, ?_⟩
      intro s he _
      rw [← enc_injective he, ← h1]
      push_cast
      ring
    have hpos : ∀ t, t ∈ added ∨ t ∈ suggested → 0 < frequency g t := by
      intro t ht
      rw [← fed_positive h, hkeys]
      tauto
    rw [s₃.vocab, s₂.vocab, s₁.vocab] at hu
    simp only [List.mem_append] at hu
    rcases hu with ((hb | h₁) | h₂) | h₃
    · obtain ⟨b, _, rfl⟩ := (bytes_mem _ _).1 hb
      refine ⟨?_, fun _ => rfl, fun _ _ h' => by simp at h'⟩
      show (0 : ℝ) < ((M : ℕ) : ℝ)
      exact_mod_cast hMpos.1
    · obtain ⟨e, he, rfl⟩ := List.mem_map.1 h₁
      obtain ⟨x, hx, e2⟩ := List.mem_map.1 (s₁.sub e he)
      exact hitem e (by rw [← e2]) (by rw [← e2]; exact hpos x (Or.inl hx)) (s₁.long e he) rfl
    · obtain ⟨e, he, rfl⟩ := List.mem_map.1 h₂
      obtain ⟨x, hx, e2⟩ := List.mem_map.1 (s₂.sub e he)
      exact hitem e (by rw [← e2]) (by rw [← e2]; exact hpos x (Or.inr hx)) (s₂.long e he) rfl
    · obtain ⟨e, he, rfl⟩ := List.mem_map.1 h₃
      obtain ⟨x, hx, e2⟩ := List.mem_map.1 (s₃.sub e he)
      have := hget x hx
      exact hitem e (by rw [← e2]; exact this.1) (by rw [← e2]; exact this.2) (s₃.long e he) rfl
  have hweight' : ∀ u ∈ sorted, 0 < u.score ∧ (u.value.length = 1 → u.score = M) ∧
      ∀ s, u.value = enc s → 1 < u.value.length → u.score = frequency g s * u.value.length :=
    fun u hu => hweight u (hperm.subset hu)
  obtain ⟨S, hS⟩ : ∃ S, S = (sorted.map (·.score)).sum := ⟨_, rfl⟩
  have hposl : ∀ x ∈ sorted.map (·.score), 0 < x := by
    intro x hx
    obtain ⟨u, hu, rfl⟩ := List.mem_map.1 hx
    exact (hweight' u hu).1
  have hlen : 2 ≤ (sorted.map (·.score)).length := by
    rw [List.length_map, hperm.length_eq]
    have e1 : (bytes M : Acc ℝ).vocab.length = 255 := by simp [bytes]
    have e2 := s₁.grows
    have e3 := s₂.grows
    have e4 := s₃.grows
    omega
  have hltS : ∀ u ∈ sorted, u.score < S := fun u hu => by
    rw [hS]
    exact lt_sum_of_mem hposl hlen (List.mem_map.2 ⟨u, hu, rfl⟩)
  have hSpos : 0 < S := by
    cases hsl : sorted with
    | nil => rw [hsl] at hlen; simp at hlen
    | cons u l =>
      have hu : u ∈ sorted := by rw [hsl]; exact List.mem_cons_self ..
      exact (hweight' u hu).1.trans (hltS u hu)
  have hlog : logprobs sorted = sorted.map fun t => { t with score := Real.log t.score - Real.log S } := by
    unfold logprobs
    have : (sorted.foldl (fun acc t => add acc t.score) zero : ℝ) = S := by
      rw [foldl_add_real, ← hS]
      show (0 : ℝ) + S = S
      ring
    rw [this]
    rfl
  have hexp : ∀ u ∈ sorted, Real.exp (Real.log u.score - Real.log S) = u.score / S := by
    intro u hu
    rw [Real.exp_sub, Real.exp_log (hweight' u hu).1, Real.exp_log hSpos]
  have hneg : ∀ u ∈ sorted, Real.log u.score - Real.log S < 0 := by
    intro u hu
    have := Real.log_lt_log (hweight' u hu).1 (hltS u hu)
    linarith
  rw [hlog] at hgen
  refine ⟨sorted.map fun t => { t with score := Real.log t.score - Real.log S }, ?_, ?_, ?_, ?_, S, M, hSpos, hMpos.2.1, hMpos.2.2, ?_⟩
  · rw [hgen, if_pos]
    rw [List.all_eq_true]
    intro t ht
    obtain ⟨u, hu, rfl⟩ := List.mem_map.1 ht
    have := hneg u hu
    simp only [TrainOps.isNormal, decide_eq_true_eq]
    exact ne_of_lt this
  · intro t ht
    obtain ⟨u, hu, rfl⟩ := List.mem_map.1 ht
    exact hneg u hu
  · rw [List.map_map]
    have : sorted.map ((fun t : ScoredToken ℝ => Real.exp t.score) ∘
        fun t => { t with score := Real.log t.score - Real.log S }) = (sorted.map (·.score)).map (· / S) := by
      rw [List.map_map]
      refine List.map_congr_left ?_
      intro u hu
      exact hexp u hu
    rw [this]
    have hdiv : ∀ l : List ℝ, (l.map (· / S)).sum = l.sum / S := by
      intro l
      induction l with
      | nil => simp
      | cons x l ih => rw [List.map_cons, List.sum_cons, ih, List.sum_cons]; ring
    rw [hdiv, ← hS, div_self hSpos.ne']
  · have hsc : ScoreSorted sorted := by
      obtain ⟨l', h1, _, h3⟩ := sort_desc real_train_laws.order hs (l := acc₃.vocab) (fun _ _ => rfl)
      unfold sortUnwrap at h1
      split at h1
      · simp only [Except.ok.injEq] at h1
        rw [hrun]
        have : (fun a b : ScoredToken ℝ => ((partialCmp a.score b.score).getD .eq).swap) =
            fun a b => (partialCmp b.score a.score).getD .eq := by
          funext a b
          exact swap_partialCmp _ _
        rw [this, h1]
        exact h3
      · simp at h1
    unfold ScoreSorted at hsc ⊢
    rw [List.pairwise_map]
    refine hsc.imp_of_mem ?_
    intro a b ha hb hab
    have hab' : ¬ a.score < b.score := by simpa [ScoreOps.lt] using hab
    have := Real.log_le_log (hweight' b hb).1 (not_lt.1 hab')
    simp only [ScoreOps.lt, decide_eq_false_iff_not]
    linarith
  · intro t ht
    obtain ⟨u, hu, rfl⟩ := List.mem_map.1 ht
    obtain ⟨_, h2, h3⟩ := hweight' u hu
    refine ⟨fun h' => ?_, fun s h' h'' => ?_⟩
    · show Real.exp (Real.log u.score - Real.log S) = _
      rw [hexp u hu, h2 h']
    · show Real.exp (Real.log u.score - Real.log S) = _
      rw [hexp u hu, h3 s h' h'']

/-- **C45** Over the real numbers `generate` always returns, whatever has been fed, and the scores it returns are
log-probabilities: every score is negative, their exponentials add up to 1, and they are sorted, highest first.  A token's
probability is proportional to the number of its bytes times its count; for a byte the highest count stands in for its
own. -/
theorem C45_logprobs (max' : Nat) (prob : ℝ) (split : Option (Str → List Str)) (allow : Option (Str → Bool))
    (added suggested fed : List Str) (g : Generator ℝ) (h : Fed max' prob split allow added suggested fed g)
    (byFreq : Sorter (Str × Nat)) (hf : SortLaws byFreq) (byScore : Sorter (ScoredToken ℝ)) (hs : SortLaws byScore)
    (size : Nat) :
    (∃ w, Generate g byFreq byScore size w) ∧
    ∀ w, Generate g byFreq byScore size w →
      (∀ t ∈ w, t.score < 0) ∧ (w.map fun t => Real.exp t.score).sum = 1 ∧ ScoreSorted w ∧
      ∃ (S : ℝ) (M : ℕ), 0 < S ∧ (∀ s, frequency g s ≤ M) ∧
        ((∃ s, 0 < frequency g s ∧ frequency g s = M) ∨ (M = 1 ∧ ∀ s, frequency g s = 0)) ∧
        ∀ t ∈ w, (t.value.length = 1 → Real.exp t.score = M / S) ∧
          ∀ s, t.value = enc s → 1 < t.value.length → Real.exp t.score = frequency g s * t.value.length / S := by
  have key := generateFrom_real h hf hs size
  constructor
  · obtain ⟨w, h1, _⟩ := key _ (.refl _)
    exact ⟨w, _, .refl _, h1⟩
  · rintro w ⟨entries, hp, hw⟩
    obtain ⟨w', h1, h2⟩ := key entries hp
    rw [hw] at h1
    obtain rfl := Except.ok.inj h1
    exact h2

/-! ### Non-vacuity -/

/-- The hypotheses are met: a generator fed `"xaby"` and `"ab"`, with `"ab"` as an added token, generates a vocabulary; the
count of `"ab"` is 3 and it is in every vocabulary of more than 255 tokens. -/
example : ∃ g : Generator ℝ, Fed 4 (ofNat 1) none none [['a', 'b']] [] [['x', 'a', 'b', 'y'], ['a', 'b']] g ∧
    frequency g ['a', 'b'] = 3 ∧
    ∃ w, Generate g (insertSorter _) (insertSorter _) 256 w ∧ w.length = 256 ∧ ∃ t ∈ w, t.value = [97, 98] := by
  classical
  have hx : ∃ x : ℝ, le zero x = true ∧ lt x (ofNat 1) = true :=
    ⟨0, by simp [ScoreOps.le, ScoreOps.zero], by simp [ScoreOps.lt, RealOps.ofNat]⟩
  obtain ⟨g, hg⟩ := (C46_feed (Generator.new 4 (ofNat 1 : ℝ) none none [['a', 'b']] []) (fun _ => 0)
    [['x', 'a', 'b', 'y'], ['a', 'b']]).1 hx
  have hfed := Fed.feed (Fed.new (max := 4) (prob := (ofNat 1 : ℝ)) (split := none) (allow := none)
    (added := [['a', 'b']]) (suggested := [])) hg
  rw [List.nil_append] at hfed
  have hconf := ((C46_feed _ _ _).2 g hg).1
  have hc : ∀ s : Str, ['a', 'b'] <:+: s → Candidate g s ['a', 'b'] := by
    intro s hs
    rw [hconf]
    exact Or.inr ⟨Or.inl (List.mem_singleton.2 rfl), hs⟩
  have h3 : frequency g ['a', 'b'] = 3 := by
    rw [C46_exact 4 none none [['a', 'b']] [] _ g hfed]
    rw [List.countP_cons, List.countP_cons, List.countP_nil, if_pos (decide_eq_true (hc _ (by decide))),
      if_pos (decide_eq_true (hc _ (by decide)))]
    rfl
  obtain ⟨⟨w, hw⟩, _⟩ := C45_logprobs 4 (ofNat 1) none none [['a', 'b']] [] _ g hfed (insertSorter _) (insertSorter_laws _)
    (insertSorter _) (insertSorter_laws _) 256
  have h44 := C44_generate 4 (ofNat 1) none none [['a', 'b']] [] _ g hfed (insertSorter _) (insertSorter_laws _)
    (insertSorter _) (insertSorter_laws _) 256 w hw
  have henc : enc ['a', 'b'] = [97, 98] := by decide
  refine ⟨g, hfed, h3, w, hw, ?_⟩
  -- the vocabulary holds the 255 bytes and `"ab"`
  have hab : ∃ t ∈ w, t.value = [97, 98] := by
    by_contra hn
    have hn' : ∀ t ∈ w, t.value ≠ enc ['a', 'b'] := by
      intro t ht e
      exact hn ⟨t, ht, e.trans henc⟩
    obtain ⟨hlen, hrest⟩ := C67_greedy 4 (ofNat 1) none none [['a', 'b']] [] _ g hfed (insertSorter _) (insertSorter_laws _)
      (insertSorter _) (insertSorter_laws _) 256 w hw ['a', 'b'] (by rw [henc]; decide) (by omega) hn'
    -- all tokens are bytes below 255, so there are at most 255
    have hone : ∀ t ∈ w, ∃ b : UInt8, b ≠ 255 ∧ t.value = [b] := by
      intro t ht
      rcases h44.2.2.2.1 t ht with h' | ⟨hl, s, hs, _⟩
      · exact h'
      · exfalso
        rcases hrest t ht s hs.symm hl with h' | ⟨h', _⟩ | ⟨h', _⟩
        · rw [List.mem_singleton] at h'
          subst h'
          exact hn' t ht hs.symm
        · exact h' (List.mem_singleton.2 rfl)
        · exact h' (List.mem_singleton.2 rfl)
    have hsub : (w.map (·.value)) ⊆ (List.range 255).map (fun n => [UInt8.ofNat n]) := by
      intro v hv
      obtain ⟨t, ht, rfl⟩ := List.mem_map.1 hv
      obtain ⟨b, hb, e⟩ := hone t ht
      rw [e]
      refine List.mem_map.2 ⟨b.toNat, ?_, by rw [UInt8.ofNat_toNat]⟩
      rw [List.mem_range]
      have h1 := b.toNat_lt
      have : b.toNat ≠ 255 := by
        intro e
        apply hb
        rw [← UInt8.ofNat_toNat (x := b), e]
        rfl
      omega
    have := (List.subperm_of_subset h44.2.1 hsub).length_le
    rw [List.length_map, List.length_map, List.length_range] at this
    omega
  refine ⟨?_, hab⟩
  have hle := h44.1
  have hsub : [97, 98] :: (List.range 255).map (fun n => [UInt8.ofNat n]) ⊆ w.map (·.value) := by
    intro v hv
    rcases List.mem_cons.1 hv with rfl | hv
    · obtain ⟨t, ht, e⟩ := hab
      exact List.mem_map.2 ⟨t, ht, e⟩
    · obtain ⟨n, hn, rfl⟩ := List.mem_map.1 hv
      rw [List.mem_range] at hn
      obtain ⟨t, ht, e, _⟩ := h44.2.2.1 (UInt8.ofNat n) (by
        intro e
        have := congrArg UInt8.toNat e
        simp only [UInt8.toNat_ofNat'] at this
        have h255 : (255 : UInt8).toNat = 255 := rfl
        omega)
      exact List.mem_map.2 ⟨t, ht, e⟩
  have hnd : ([97, 98] :: (List.range 255).map (fun n => [UInt8.ofNat n])).Nodup := by
    refine List.nodup_cons.2 ⟨?_, ?_⟩
    · intro h'
      obtain ⟨n, _, e⟩ := List.mem_map.1 h'
      simp at e
    · exact (bytes_consistent (F := ℝ) 1).2
  have := (List.subperm_of_subset hnd hsub).length_le
  rw [List.length_cons, List.length_map, List.length_range, List.length_map] at this
  omega

end Tokengeex

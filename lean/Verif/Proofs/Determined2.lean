import Verif.Props.Generate
import Verif.Props.Merge
import Verif.Props.Counting
/-
Without randomness, what mining, generating and merging return is determined by their inputs up to ties.
-/
namespace Tokengeex
open Spec ScoreOps

/-- Two lists of the same distinct elements, in strictly descending order. -/
theorem eq_of_descending {α : Type} (f : α → Nat) {l₁ l₂ : List α} (hp : l₁.Perm l₂)
    (h₁ : l₁.Pairwise (fun a b => f b ≤ f a)) (h₂ : l₂.Pairwise (fun a b => f b ≤ f a))
    (hinj : ∀ a ∈ l₁, ∀ b ∈ l₁, f a = f b → a = b) : l₁ = l₂ := by
  refine List.Perm.eq_of_pairwise (le := fun a b => f b ≤ f a) ?_ h₁ h₂ hp
  intro a b ha hb h h'
  exact hinj a ha b (hp.symm.subset hb) (by omega)

/-- The same numbers in descending order. -/
theorem eq_map_of_descending {α : Type} (f : α → Nat) {l₁ l₂ : List α} (hp : l₁.Perm l₂)
    (h₁ : l₁.Pairwise (fun a b => f b ≤ f a)) (h₂ : l₂.Pairwise (fun a b => f b ≤ f a)) : l₁.map f = l₂.map f := by
  refine List.Perm.eq_of_pairwise (le := fun a b => b ≤ a) ?_ (List.pairwise_map.2 h₁) (List.pairwise_map.2 h₂) (hp.map f)
  intro a b _ _ h h'
  omega

namespace Generator
variable {F : Type} [TrainOps F]

theorem frequencies_perm {max max' : Nat} {prob prob' : F} {split split' : Option (Str → List Str)} {allow allow' : Option (Str → Bool)}
    {added suggested fed added' suggested' fed' : List Str} {g g' : Generator F} (h : Fed max prob split allow added suggested fed g)
    (h' : Fed max' prob' split' allow' added' suggested' fed' g') (hfreq : ∀ t, frequency g t = frequency g' t) :
    g.frequencies.Perm g'.frequencies := by
  obtain ⟨_, _, _, n1, _, _⟩ := fed_facts h
  obtain ⟨_, _, _, n2, _, _⟩ := fed_facts h'
  refine (List.perm_ext_iff_of_nodup (n1.of_map _) (n2.of_map _)).2 ?_
  have one : ∀ {max : Nat} {prob : F} {split : Option (Str → List Str)} {allow : Option (Str → Bool)}
      {added suggested fed : List Str} {g : Generator F}, Fed max prob split allow added suggested fed g →
      ∀ e : Str × Nat, e ∈ g.frequencies ↔ e.2 = frequency g e.1 ∧ 0 < e.2 := by
    intro _ _ _ _ _ _ _ g h e
    obtain ⟨_, _, _, n1, _, _⟩ := fed_facts h
    have hk := fed_positive h e.1
    rw [FreqTable.mem_keys_iff] at hk
    rw [show e = (e.1, e.2) from rfl, FreqTable.mem_iff_get? n1]
    unfold frequency at hk ⊢
    cases hget : FreqTable.get? g.frequencies e.1 with
    | none =>
      simp only [Option.getD_none]
      constructor
      · intro h; cases h
      · rintro ⟨h, h'⟩; omega
    | some m =>
      rw [hget] at hk
      have hm := hk.1 ⟨m, rfl⟩
      simp only [Option.getD_some] at hm ⊢
      constructor
      · intro h'; cases h'; exact ⟨rfl, hm⟩
      · rintro ⟨rfl, _⟩; rfl
  intro e
  rw [one h, one h', hfreq]

theorem stage_notSeen {size : Nat} {f : List (Str × Nat)} (hk : (f.map (·.1)).Nodup) {acc a : Acc F} (hc : Consistent acc)
    {t : List Item} (s : Stage size (f.map fun e => (e.1, e.2, false)) acc a t) {x : Item}
    (hx : x ∈ f.map (fun e => (e.1, e.2, false))) (hfresh : enc x.1 ∉ acc.seen) (hnot : x ∉ t) : enc x.1 ∉ a.seen := by
  intro hin
  rw [s.cons.1, s.vocab, List.map_append, List.mem_append, ← hc.1] at hin
  rcases hin with hin | hin
  · exact hfresh hin
  · rw [List.map_map] at hin
    obtain ⟨y, hy, e⟩ := List.mem_map.1 hin
    obtain ⟨p, hp, rfl⟩ := List.mem_map.1 hx
    obtain ⟨q, hq, rfl⟩ := List.mem_map.1 (s.sub y hy)
    have hpq : q.1 = p.1 := enc_injective e
    have : q = p := List.inj_on_of_nodup_map hk hq hp hpq
    exact hnot (this ▸ hy)

theorem stage_nodup {size : Nat} {l : List Item} {acc a : Acc F} {t : List Item} (s : Stage size l acc a t) : t.Nodup := by
  have h := s.cons.2
  rw [s.cons.1, s.vocab, List.map_append, List.nodup_append, List.map_map] at h
  exact h.2.1.of_map _

/-- Two runs of the last loop take the same strings, unless a string that is left out has the count of one that is taken. -/
theorem taken_subset {size : Nat} {f₁ f₂ : List (Str × Nat)} (hf : f₁.Perm f₂) (hk : (f₁.map (·.1)).Nodup)
    (h₁ : f₁.Pairwise (fun a b => b.2 ≤ a.2))
    (h₂ : f₂.Pairwise (fun a b => b.2 ≤ a.2)) {acc acc₁ acc₂ : Acc F} (hc : Consistent acc) {t₁ t₂ : List Item}
    (s₁ : Stage size (f₁.map fun e => (e.1, e.2, false)) acc acc₁ t₁)
    (s₂ : Stage size (f₂.map fun e => (e.1, e.2, false)) acc acc₂ t₂)
    (hno : ∀ x ∈ t₁, ∀ y ∈ t₂, x ∉ t₂ → y ∉ t₁ → x.2.1 ≠ y.2.1) : t₁ ⊆ t₂ := by
  intro x hx
  by_contra hnot
  have hk₂ : (f₂.map (·.1)).Nodup := (hf.map _).nodup_iff.1 hk
  obtain ⟨fr, hroom⟩ := s₁.fresh x hx
  have hx₂ : x ∈ f₂.map (fun e => ((e.1, e.2, false) : Item)) := (hf.map _).subset (s₁.sub x hx)
  have hxs := stage_notSeen hk₂ hc s₂ hx₂ fr hnot
  have hfull := s₂.all x hx₂ (s₁.long x hx) hxs
  have hlen := s₁.len
  rw [s₁.vocab, List.length_append, List.length_map] at hlen
  rw [s₂.vocab, List.length_append, List.length_map] at hfull
  have hy : ∃ y ∈ t₂, y ∉ t₁ := by
    by_contra hn
    push Not at hn
    have hsub : t₂ ⊆ t₁.erase x := by
      intro y hy
      rw [List.Nodup.mem_erase_iff (stage_nodup s₁)]
      exact ⟨fun e => hnot (e ▸ hy), hn y hy⟩
    have := (List.subperm_of_subset (stage_nodup s₂) hsub).length_le
    rw [List.length_erase_of_mem hx] at this
    have := List.length_pos_of_mem hx
    omega
  obtain ⟨y, hy, hyn⟩ := hy
  have hy₁ : y ∈ f₁.map (fun e => ((e.1, e.2, false) : Item)) := (hf.map _).symm.subset (s₂.sub y hy)
  have hys := stage_notSeen hk hc s₁ hy₁ (s₂.fresh y hy).1 hyn
  have o₁ := s₁.order (fun a b => b.2.1 ≤ a.2.1) (List.pairwise_map.2 h₁) y hy₁ (s₂.long y hy) hys x hx
  have o₂ := s₂.order (fun a b => b.2.1 ≤ a.2.1) (List.pairwise_map.2 h₂) x hx₂ (s₁.long x hx) hxs y hy
  exact hno x hx y hy hnot hyn (by omega)

/-- The values `generate` sorts by are ordered. -/
structure CountOrder (F : Type) [TrainOps F] : Prop where
  total : ∀ a b : Nat, le (RealOps.ofNat a : F) (RealOps.ofNat b) = true ∨ le (RealOps.ofNat b : F) (RealOps.ofNat a) = true
  trans : ∀ a b c : Nat, le (RealOps.ofNat a : F) (RealOps.ofNat b) = true → le (RealOps.ofNat b : F) (RealOps.ofNat c) = true →
    le (RealOps.ofNat a : F) (RealOps.ofNat c) = true
  antisymm : ∀ a b : Nat, le (RealOps.ofNat a : F) (RealOps.ofNat b) = true → le (RealOps.ofNat b : F) (RealOps.ofNat a) = true →
    (RealOps.ofNat a : F) = RealOps.ofNat b

theorem cmp_ne_gt {a b : F} : ((partialCmp a b).getD .eq).swap ≠ .gt ↔ (le b a = true ∨ le a b = false) := by
  unfold partialCmp
  cases le a b <;> cases le b a <;> simp [Ordering.swap]

/-- Sorting by score gives the same sequence of scores. -/
theorem sorted_scores (L : CountOrder F) {s s' : Sorter (ScoredToken F)} (hs : SortLaws s) (hs' : SortLaws s') {v v' : List (ScoredToken F)}
    (hp : v.Perm v') (hv : ∀ t ∈ v, ∃ n : Nat, t.score = RealOps.ofNat n) :
    (s.run (fun a b => ((partialCmp a.score b.score).getD .eq).swap) v).map (·.score) =
      (s'.run (fun a b => ((partialCmp a.score b.score).getD .eq).swap) v').map (·.score) := by
  have hv' : ∀ t ∈ v', ∃ n : Nat, t.score = RealOps.ofNat n := fun t ht => hv t (hp.symm.subset ht)
  have one : ∀ {s : Sorter (ScoredToken F)} (_ : SortLaws s) {v : List (ScoredToken F)} (_ : ∀ t ∈ v, ∃ n : Nat, t.score = RealOps.ofNat n),
      ((s.run (fun a b => ((partialCmp a.score b.score).getD .eq).swap) v).map (·.score)).Pairwise (fun a b => le b a = true) := by
    intro s hs v hv
    obtain ⟨h1, h2⟩ := hs (fun a b => ((partialCmp a.score b.score).getD .eq).swap) v
    have hcmp : ∀ a ∈ v, ∀ b ∈ v, ((partialCmp a.score b.score).getD .eq).swap ≠ .gt ↔ le b.score a.score = true := by
      intro a ha b hb
      obtain ⟨n, hn⟩ := hv a ha
      obtain ⟨m, hm⟩ := hv b hb
      rw [cmp_ne_gt]
      have := L.total n m
      rw [← hn, ← hm] at this
      constructor
      · rintro (h | h)
        · exact h
        · rcases this with h' | h'
          · rw [h'] at h; simp at h
          · exact h'
      · exact Or.inl
    have := h2 (by
      intro a ha b hb
      rw [hcmp a ha b hb, hcmp b hb a ha]
      obtain ⟨n, hn⟩ := hv a ha
      obtain ⟨m, hm⟩ := hv b hb
      rw [hn, hm]
      exact (L.total n m).symm) (by
      intro a ha b hb c hc
      rw [hcmp a ha b hb, hcmp b hb c hc, hcmp a ha c hc]
      obtain ⟨n, hn⟩ := hv a ha
      obtain ⟨m, hm⟩ := hv b hb
      obtain ⟨k, hk⟩ := hv c hc
      rw [hn, hm, hk]
      exact fun p q => L.trans _ _ _ q p)
    rw [List.pairwise_map]
    exact this.imp_of_mem fun ha hb h => (hcmp _ (h1.subset ha) _ (h1.subset hb)).1 h
  refine List.Perm.eq_of_pairwise (le := fun a b => le b a = true) ?_ (one hs hv) (one hs' hv') ?_
  · intro a b ha hb h h'
    obtain ⟨t, ht, rfl⟩ := List.mem_map.1 ha
    obtain ⟨u, hu, rfl⟩ := List.mem_map.1 hb
    obtain ⟨n, hn⟩ := hv t ((hs _ _).1.subset ht)
    obtain ⟨m, hm⟩ := hv' u ((hs' _ _).1.subset hu)
    rw [hn, hm] at h h' ⊢
    exact L.antisymm _ _ h' h
  · exact (((hs _ _).1.trans hp).trans (hs' _ _).1.symm).map _

theorem foldl_scores (l : List (ScoredToken F)) (x : F) : l.foldl (fun acc t => add acc t.score) x = (l.map (·.score)).foldl add x := by
  rw [List.foldl_map]

theorem logprobs_perm {a b : List (ScoredToken F)} (hp : a.Perm b) (hs : a.map (·.score) = b.map (·.score)) :
    (logprobs a).Perm (logprobs b) := by
  unfold logprobs
  dsimp only
  rw [foldl_scores, foldl_scores, hs]
  exact hp.map _

theorem loop_scores (size : Nat) (l : List Item) (h : Nat) :
    ∀ t ∈ (loop size l (bytes h) : Acc F).vocab, ∃ n : Nat, t.score = RealOps.ofNat n := by
  obtain ⟨taken, s⟩ := stage (F := F) size l _ (bytes_consistent h)
  intro t ht
  rw [s.vocab, List.mem_append] at ht
  rcases ht with ht | ht
  · obtain ⟨b, _, rfl⟩ := (bytes_mem _ _).1 ht
    exact ⟨_, rfl⟩
  · obtain ⟨e, _, rfl⟩ := List.mem_map.1 ht
    exact ⟨_, rfl⟩

/-- Two runs of `generate` on the same counts. -/
theorem generate_unique (L : CountOrder F) {max max' : Nat} {prob prob' : F} {split split' : Option (Str → List Str)} {allow allow' : Option (Str → Bool)}
    {added suggested fed fed' : List Str} {g g' : Generator F} (h : Fed max prob split allow added suggested fed g)
    (h' : Fed max' prob' split' allow' added suggested fed' g') (hfreq : ∀ t, frequency g t = frequency g' t)
    {byFreq byFreq' : Sorter (Str × Nat)} (hf : SortLaws byFreq) (hf' : SortLaws byFreq')
    {byScore byScore' : Sorter (ScoredToken F)} (hs : SortLaws byScore) (hs' : SortLaws byScore') {size : Nat}
    {w w' : List (ScoredToken F)} (hg : Generate g byFreq byScore size w) (hg' : Generate g' byFreq' byScore' size w')
    (hno : ∀ s t, (∃ u ∈ w, u.value = enc s) → 1 < (enc s).length → s ∉ added → s ∉ suggested → (∀ u ∈ w, u.value ≠ enc t) → 1 < (enc t).length →
      0 < frequency g t → frequency g s ≠ frequency g t) : w.Perm w' ∧ w.map (·.score) = w'.map (·.score) := by
  obtain ⟨entries, hp, hw⟩ := hg
  obtain ⟨entries', hp', hw'⟩ := hg'
  obtain ⟨sels, hsel, hfq, hnd, hkeys, hconf⟩ := fed_facts h
  obtain ⟨sels', hsel', hfq', hnd', hkeys', hconf'⟩ := fed_facts h'
  have hadd : g.addedTokens = added := by rw [hconf]; rfl
  have hsug : g.suggestedTokens = suggested := by rw [hconf]; rfl
  have hadd' : g'.addedTokens = added := by rw [hconf']; rfl
  have hsug' : g'.suggestedTokens = suggested := by rw [hconf']; rfl
  have e1 := generateFrom_eq g byFreq byScore size entries (by
    intro t ht; rw [hkeys, ← hadd, ← hsug]; tauto)
  have e2 := generateFrom_eq g' byFreq' byScore' size entries' (by
    intro t ht; rw [hkeys', ← hadd', ← hsug']; tauto)
  dsimp only at e1 e2
  rw [e1] at hw
  rw [e2] at hw'
  clear e1 e2
  obtain ⟨p1, q1⟩ := sort_counts hf entries
  obtain ⟨p2, q2⟩ := sort_counts hf' entries'
  generalize byFreq.run (fun a b => compare b.2 a.2) entries = f₁ at *
  generalize byFreq'.run (fun a b => compare b.2 a.2) entries' = f₂ at *
  have hperm : f₁.Perm f₂ := (p1.trans hp).trans ((frequencies_perm h h' hfreq).trans (p2.trans hp').symm)
  have hk : (f₁.map (·.1)).Nodup := ((p1.trans hp).map _).nodup_iff.2 hnd
  have hhead : (f₁.head?.map (·.2)).getD 1 = (f₂.head?.map (·.2)).getD 1 := by
    have := eq_map_of_descending (·.2) hperm q1 q2
    rw [← List.head?_map, ← List.head?_map, this]
  unfold items at hw hw'
  rw [hadd, hsug, ← List.append_assoc, loop_append] at hw
  rw [hadd', hsug', ← List.append_assoc, loop_append, ← hhead] at hw'
  have hitems : added.map (fun t => ((t, frequency g' t, true) : Item)) ++ suggested.map (fun t => (t, frequency g' t, false)) =
      added.map (fun t => (t, frequency g t, true)) ++ suggested.map (fun t => (t, frequency g t, false)) := by
    congr 1 <;> exact List.map_congr_left fun t _ => by rw [hfreq]
  rw [hitems] at hw'
  obtain ⟨t₀, s₀⟩ := stage (F := F) size (added.map (fun t => ((t, frequency g t, true) : Item)) ++ suggested.map (fun t => (t, frequency g t, false))) _
    (bytes_consistent ((f₁.head?.map (·.2)).getD 1))
  generalize hA : loop size (added.map (fun t => ((t, frequency g t, true) : Item)) ++ suggested.map (fun t => (t, frequency g t, false)))
    (bytes ((f₁.head?.map (·.2)).getD 1) : Acc F) = A at hw hw' s₀
  obtain ⟨t₁, s₁⟩ := stage (F := F) size (f₁.map fun e => (e.1, e.2, false)) A s₀.cons
  obtain ⟨t₂, s₂⟩ := stage (F := F) size (f₂.map fun e => (e.1, e.2, false)) A s₀.cons
  have hsc₁ : ∀ t ∈ (loop size (f₁.map fun e => (e.1, e.2, false)) A).vocab, ∃ n : Nat, t.score = RealOps.ofNat n := by
    rw [← hA, ← loop_append]; exact loop_scores _ _ _
  generalize loop size (f₁.map fun e => (e.1, e.2, false)) A = A₁ at *
  generalize loop size (f₂.map fun e => (e.1, e.2, false)) A = A₂ at *
  have hwv : w = logprobs (byScore.run (fun a b => ((partialCmp a.score b.score).getD .eq).swap) A₁.vocab) := by
    by_cases hall : (logprobs (byScore.run (fun a b => ((partialCmp a.score b.score).getD .eq).swap) A₁.vocab)).all (fun t => TrainOps.isNormal t.score) = true
    · rw [if_pos hall] at hw; cases hw; rfl
    · rw [if_neg hall] at hw; cases hw
  have hwv' : w' = logprobs (byScore'.run (fun a b => ((partialCmp a.score b.score).getD .eq).swap) A₂.vocab) := by
    by_cases hall : (logprobs (byScore'.run (fun a b => ((partialCmp a.score b.score).getD .eq).swap) A₂.vocab)).all (fun t => TrainOps.isNormal t.score) = true
    · rw [if_pos hall] at hw'; cases hw'; rfl
    · rw [if_neg hall] at hw'; cases hw'
  have hin : ∀ v, (∃ u ∈ w, u.value = v) ↔ v ∈ A₁.seen := by
    intro v
    rw [s₁.cons.1, hwv]
    have hv := logprobs_map (byScore.run (fun a b => ((partialCmp a.score b.score).getD .eq).swap) A₁.vocab) (fun v _ => v)
    rw [← List.mem_map, hv]
    exact ⟨fun x => ((hs _ _).1.map _).subset x, fun x => ((hs _ _).1.map _).symm.subset x⟩
  -- no ties
  have hno' : ∀ x ∈ t₁, ∀ y ∈ t₂, x ∉ t₂ → y ∉ t₁ → x.2.1 ≠ y.2.1 := by
    intro x hx y hy _ hyn heq
    have hy₁ : y ∈ f₁.map (fun e => ((e.1, e.2, false) : Item)) := (hperm.map _).symm.subset (s₂.sub y hy)
    have hys := stage_notSeen hk s₀.cons s₁ hy₁ (s₂.fresh y hy).1 hyn
    have hcount : ∀ z : Item, z ∈ f₁.map (fun e => ((e.1, e.2, false) : Item)) → z.2.1 = frequency g z.1 ∧ 0 < z.2.1 := by
      intro z hz
      obtain ⟨e, he, rfl⟩ := List.mem_map.1 hz
      have h1 : (e.1, e.2) ∈ g.frequencies := (p1.trans hp).subset he
      have h2 := (fed_positive h e.1).1 (List.mem_map.2 ⟨_, h1, rfl⟩)
      rw [FreqTable.mem_iff_get? hnd] at h1
      unfold frequency at h2 ⊢
      rw [h1] at h2 ⊢
      exact ⟨rfl, h2⟩
    obtain ⟨cx, _⟩ := hcount x (s₁.sub x hx)
    obtain ⟨cy, py⟩ := hcount y hy₁
    have hxs : enc x.1 ∈ A₁.seen := by
      rw [s₁.cons.1, s₁.vocab, List.map_append, List.mem_append, List.map_map]
      exact Or.inr (List.mem_map.2 ⟨x, hx, rfl⟩)
    have hlisted : ∀ (k : Bool), (x.1, frequency g x.1, k) ∈ added.map (fun t => ((t, frequency g t, true) : Item)) ++ suggested.map (fun t => (t, frequency g t, false)) → False := by
      intro k hm
      obtain ⟨fr, hroom⟩ := s₁.fresh x hx
      have := s₀.all _ hm (s₁.long x hx) fr
      omega
    refine hno x.1 y.1 ((hin _).2 hxs) (s₁.long x hx) ?_ ?_ ?_ (s₂.long y hy) (by omega) (by omega)
    · intro ha
      exact hlisted true (List.mem_append.2 (Or.inl (List.mem_map.2 ⟨_, ha, rfl⟩)))
    · intro ha
      exact hlisted false (List.mem_append.2 (Or.inr (List.mem_map.2 ⟨_, ha, rfl⟩)))
    · intro u hu e
      exact hys ((hin _).1 ⟨u, hu, e⟩)
  have sub₁ := taken_subset hperm hk q1 q2 s₀.cons s₁ s₂ hno'
  have sub₂ := taken_subset hperm.symm ((hperm.map _).nodup_iff.1 hk) q2 q1 s₀.cons s₂ s₁
    (fun x hx y hy a b => (hno' y hy x hx b a).symm)
  have htp : t₁.Perm t₂ := (List.perm_ext_iff_of_nodup (stage_nodup s₁) (stage_nodup s₂)).2 fun x => ⟨fun a => sub₁ a, fun a => sub₂ a⟩
  have hvp : A₁.vocab.Perm A₂.vocab := by
    rw [s₁.vocab, s₂.vocab]
    exact List.Perm.append_left _ (htp.map _)
  have hss := sorted_scores L hs hs' hvp hsc₁
  constructor
  · rw [hwv, hwv']
    exact logprobs_perm (((hs _ _).1.trans hvp).trans (hs' _ _).1.symm) hss
  · rw [hwv, hwv']
    unfold logprobs
    dsimp only
    rw [foldl_scores, foldl_scores, hss, List.map_map, List.map_map]
    have : ∀ (l : List (ScoredToken F)) (f : F → F), l.map ((fun x => x.score) ∘ fun t => ({ t with score := f t.score } : ScoredToken F)) = (l.map (·.score)).map f := by
      intro l f
      rw [List.map_map]
      rfl
    rw [this _ (fun x => RealOps.sub (RealOps.ln x) _), this _ (fun x => RealOps.sub (RealOps.ln x) _), hss]

end Generator
/-- The first elements of two sorted lists, if no other element ties with them. -/
theorem take_unique {α : Type} (f : α → Nat) : ∀ (n : Nat) (l₁ l₂ : List α), l₁.Perm l₂ → l₁.Pairwise (fun a b => f b ≤ f a) →
    l₂.Pairwise (fun a b => f b ≤ f a) → (∀ a ∈ l₁.take n, ∀ b ∈ l₁, f a = f b → a = b) → l₁.take n = l₂.take n := by
  intro n
  induction n with
  | zero => intros; simp
  | succ n ih =>
    intro l₁ l₂ hp h₁ h₂ hu
    cases l₁ with
    | nil => rw [List.nil_perm.1 hp]
    | cons a l₁ =>
      cases l₂ with
      | nil => exact absurd hp.length_eq (by simp)
      | cons b l₂ =>
        have hab : a = b := by
          have hb : b ∈ a :: l₁ := hp.symm.subset (List.mem_cons_self ..)
          have ha : a ∈ b :: l₂ := hp.subset (List.mem_cons_self ..)
          refine hu a (by simp) b hb ?_
          have h3 : f b ≤ f a := by
            rcases List.mem_cons.1 hb with rfl | h
            · exact Nat.le_refl _
            · exact (List.pairwise_cons.1 h₁).1 b h
          have h4 : f a ≤ f b := by
            rcases List.mem_cons.1 ha with rfl | h
            · exact Nat.le_refl _
            · exact (List.pairwise_cons.1 h₂).1 a h
          omega
        subst hab
        rw [List.take_succ_cons, List.take_succ_cons, ih l₁ l₂ hp.cons_inv (List.pairwise_cons.1 h₁).2 (List.pairwise_cons.1 h₂).2]
        intro x hx y hy
        exact hu x (by simp [hx]) y (List.mem_cons_of_mem _ hy)

namespace Merger
variable {F : Type} [ScoreOps F] [Mul F]

omit [Mul F] in
theorem encodedAs_sum {rnd : Nat → F} {samples : List Str} {v : List (ScoredToken F)} {idss : List (List Nat)}
    (h : EncodedAs rnd samples v idss) (p : Nat × Nat) :
    pairCount idss p = (samples.map (contribution (Model.from_ v) rnd p)).sum := by
  unfold EncodedAs at h
  unfold pairCount
  congr 1
  induction samples generalizing idss with
  | nil => simp [pure, Except.pure] at h; subst h; rfl
  | cons s samples ih =>
    rw [List.mapM_cons] at h
    cases he : (Model.from_ v).encode s ScoreOps.zero rnd with
    | error e => rw [he] at h; simp at h
    | ok ids =>
      rw [he] at h
      simp only [res_bind_ok] at h
      cases hr : samples.mapM (fun s => (Model.from_ v).encode s ScoreOps.zero rnd) with
      | error e => rw [hr] at h; simp at h
      | ok idss' =>
        rw [hr] at h
        simp only [res_bind_ok, res_pure, Except.ok.injEq] at h
        subst h
        rw [List.map_cons, List.map_cons, ih hr, contribution, he]

omit [Mul F] in
/-- Counts of pairs depend neither on the order of the samples nor on the random numbers. -/
theorem pairCount_perm (hz : le (zero : F) zero = true) {rnd rnd' : Nat → F} {samples samples' : List Str} (hp : samples.Perm samples')
    {v : List (ScoredToken F)} {idss idss' : List (List Nat)} (h : EncodedAs rnd samples v idss) (h' : EncodedAs rnd' samples' v idss')
    (p : Nat × Nat) : pairCount idss p = pairCount idss' p := by
  rw [encodedAs_sum h, encodedAs_sum h', (hp.map _).sum_eq]
  congr 1
  refine List.map_congr_left fun s _ => ?_
  unfold contribution
  rw [C06_deterministic v s zero rnd rnd' hz]

theorem mergeOf_unique {c : Merger F} {v : List (ScoredToken F)} {p : Nat × Nat} {t u : ScoredToken F} (h : MergeOf c v p t)
    (h' : MergeOf c v p u) : t = u := by
  rw [← tokenFor_iff] at h h'
  rw [h] at h'
  exact Option.some.inj h'

theorem round_unique (hz : le (zero : F) zero = true) {c : Merger F} {rnd rnd' : Nat → F} {samples samples' : List Str}
    (hp : samples.Perm samples') {limit : Nat} {v added added' : List (ScoredToken F)} (hn : NoTies c rnd samples v)
    (h : Round c rnd samples limit v added) (h' : Round c rnd' samples' limit v added') : added = added' := by
  obtain ⟨idss, pairs, e, m, nd, pos, len, out, srt⟩ := h
  obtain ⟨idss', pairs', e', m', nd', pos', len', out', srt'⟩ := h'
  have hc : ∀ p, pairCount idss' p = pairCount idss p := fun p => (pairCount_perm hz hp e e' p).symm
  simp only [hc] at pos' out' srt'
  have hm : ∀ p ∈ pairs, ∃ t, MergeOf c v p t := by
    intro p hp
    obtain ⟨i, hi, rfl⟩ := List.getElem_of_mem hp
    exact ⟨_, m.get hi (by rw [← m.length_eq]; exact hi)⟩
  have hm' : ∀ p ∈ pairs', ∃ t, MergeOf c v p t := by
    intro p hp
    obtain ⟨i, hi, rfl⟩ := List.getElem_of_mem hp
    exact ⟨_, m'.get hi (by rw [← m'.length_eq]; exact hi)⟩
  have inj : ∀ p q t u, MergeOf c v p t → MergeOf c v q u → 0 < pairCount idss p → pairCount idss p = pairCount idss q → p = q :=
    hn idss e
  have sub : ∀ {a b : List (Nat × Nat)}, a.Nodup → b.Nodup → (∀ p ∈ a, ∃ t, MergeOf c v p t) → (∀ p ∈ b, ∃ t, MergeOf c v p t) →
      (∀ p ∈ a, 0 < pairCount idss p) → (∀ p ∈ b, 0 < pairCount idss p) → a.length ≤ limit →
      (∀ q t, MergeOf c v q t → 0 < pairCount idss q → q ∉ a → a.length = limit ∧ ∀ p ∈ a, pairCount idss q ≤ pairCount idss p) →
      (∀ q t, MergeOf c v q t → 0 < pairCount idss q → q ∉ b → b.length = limit ∧ ∀ p ∈ b, pairCount idss q ≤ pairCount idss p) → a ⊆ b := by
    intro a b na nb ma mb pa pb la oa ob p hpa
    by_contra hnot
    obtain ⟨t, ht⟩ := ma p hpa
    obtain ⟨h1, h2⟩ := ob p t ht (pa p hpa) hnot
    have hy : ∃ y ∈ b, y ∉ a := by
      by_contra hno
      push Not at hno
      have hsub : b ⊆ a.erase p := by
        intro y hy
        rw [List.Nodup.mem_erase_iff na]
        exact ⟨fun e => hnot (e ▸ hy), hno y hy⟩
      have := (List.subperm_of_subset nb hsub).length_le
      rw [List.length_erase_of_mem hpa] at this
      have := List.length_pos_of_mem hpa
      omega
    obtain ⟨y, hyb, hya⟩ := hy
    obtain ⟨u, hu⟩ := mb y hyb
    have h3 := (oa y u hu (pb y hyb) hya).2 p hpa
    have h4 := h2 y hyb
    exact hya (inj p y t u ht hu (pa p hpa) (by omega) ▸ hpa)
  have hperm : pairs.Perm pairs' := (List.perm_ext_iff_of_nodup nd nd').2 fun p =>
    ⟨fun h => sub nd nd' hm hm' pos pos' len out out' h, fun h => sub nd' nd hm' hm pos' pos len' out' out h⟩
  have heq : pairs = pairs' := by
    refine eq_of_descending (pairCount idss) hperm srt srt' ?_
    intro a ha b hb hab
    obtain ⟨t, ht⟩ := hm a ha
    obtain ⟨u, hu⟩ := hm b hb
    exact inj a b t u ht hu (pos a ha) hab
  subst heq
  clear hperm sub out out' srt srt' pos pos' nd nd' len len' hm hm'
  induction m generalizing added' with
  | nil => cases m'; rfl
  | cons h1 _ ih =>
    cases m' with
    | cons h2 r => rw [mergeOf_unique h1 h2, ih r]

theorem round_perm (hz : le (zero : F) zero = true) {c : Merger F} {rnd rnd' : Nat → F} {samples samples' : List Str}
    (hp : samples.Perm samples') {limit : Nat} {v added : List (ScoredToken F)} (h : Round c rnd samples limit v added) :
    Round c rnd' samples' limit v added := by
  obtain ⟨idss, pairs, e, rest⟩ := h
  obtain ⟨idss', e'⟩ : ∃ idss', EncodedAs rnd' samples' v idss' := by
    rw [encodedAs_iff]
    intro s hs
    rw [C06_deterministic v s zero rnd' rnd hz]
    exact encodedAs_iff.1 ⟨idss, e⟩ s (hp.symm.subset hs)
  have hc : ∀ p, pairCount idss p = pairCount idss' p := fun p => pairCount_perm hz hp e e' p
  simp only [hc] at rest
  exact ⟨idss', pairs, e', rest⟩

/-- The relation between vocabularies before and after a round. -/
def Step (c : Merger F) (rnd : Nat → F) (samples : List Str) (vocab : List (ScoredToken F)) (a b : List (ScoredToken F)) : Prop :=
  Rounds c rnd samples vocab.length vocab a ∧ ∃ added, Round c rnd samples (roundLimit c vocab.length a) a added ∧ b = a ++ added

theorem rounds_steps (hz : le (zero : F) zero = true) {c : Merger F} {rnd rnd' : Nat → F} {samples samples' : List Str}
    (hp : samples.Perm samples') {vocab w : List (ScoredToken F)} (h : Rounds c rnd' samples' vocab.length vocab w) :
    Relation.ReflTransGen (Step c rnd samples vocab) vocab w ∧ Rounds c rnd samples vocab.length vocab w := by
  induction h with
  | refl => exact ⟨.refl, .refl _⟩
  | tail _ r ih =>
    obtain ⟨a, b⟩ := ih
    have r' := round_perm (rnd' := rnd) hz hp.symm r
    exact ⟨a.tail ⟨b, _, r', rfl⟩, .tail b r'⟩

theorem rounds_unique (hz : le (zero : F) zero = true) {c : Merger F} {rnd rnd' : Nat → F} {samples samples' : List Str}
    (hp : samples.Perm samples') {vocab w w' : List (ScoredToken F)}
    (hno : ∀ u, Rounds c rnd samples vocab.length vocab u → NoTies c rnd samples u)
    (h : Rounds c rnd samples vocab.length vocab w) (h' : Rounds c rnd' samples' vocab.length vocab w')
    (hd : w.length = vocab.length + c.numMerges ∨ c.step = 0 ∨ NoMergeLeft c rnd samples w)
    (hd' : w'.length = vocab.length + c.numMerges ∨ c.step = 0 ∨ NoMergeLeft c rnd' samples' w') : w = w' := by
  have hun : Relator.RightUnique (Step c rnd samples vocab) := by
    rintro a b b' ⟨ha, added, r, rfl⟩ ⟨_, added', r', rfl⟩
    rw [round_unique hz (.refl _) (hno a ha) r r']
  have fixed : ∀ {rnd : Nat → F} {samples : List Str} {w b : List (ScoredToken F)},
      (w.length = vocab.length + c.numMerges ∨ c.step = 0 ∨ NoMergeLeft c rnd samples w) →
      (∃ added, Round c rnd samples (roundLimit c vocab.length w) w added ∧ b = w ++ added) → b = w := by
    rintro rnd samples w b hd ⟨added, r, rfl⟩
    have hlim : roundLimit c vocab.length w = 0 → added = [] := by
      intro h0
      obtain ⟨_, pairs, _, m, _, _, len, _⟩ := r
      have := m.length_eq
      exact List.length_eq_zero_iff.1 (by omega)
    rcases hd with hd | hd | hd
    · rw [hlim (by unfold roundLimit; omega), List.append_nil]
    · rw [hlim (by unfold roundLimit; omega), List.append_nil]
    · rw [nil_of_noMergeLeft hd r, List.append_nil]
  have stay : ∀ {a b : List (ScoredToken F)}, (∀ x, Step c rnd samples vocab a x → x = a) →
      Relation.ReflTransGen (Step c rnd samples vocab) a b → b = a := by
    intro a b hf hr
    induction hr with
    | refl => rfl
    | tail _ s ih => subst ih; exact hf _ s
  obtain ⟨s, _⟩ := rounds_steps (rnd := rnd) hz (.refl samples) h
  obtain ⟨s', _⟩ := rounds_steps (rnd := rnd) hz hp h'
  rcases s.total_of_right_unique hun s' with q | q
  · exact (stay (fun x hx => fixed hd hx.2) q).symm
  · refine stay (fun x hx => ?_) q
    obtain ⟨_, added, r, rfl⟩ := hx
    exact fixed hd' ⟨added, round_perm hz hp r, rfl⟩

end Merger
end Tokengeex

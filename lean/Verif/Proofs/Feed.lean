import Verif.Spec.Generate
import Verif.Proofs.Counting
import Verif.Proofs.Utf8
/-
Lemmas about `VocabularyGenerator::feed`.
-/
namespace Tokengeex
open Spec Parallel

/-- Like `parCount_sum` for workers whose contribution is not determined by their chunk. -/
theorem parCount_choice {K α β M : Type} [DecidableEq K] [AddCommMonoid M] {Worker : List α → List (Op K M) → Prop}
    (guard : K → Nat) (R : α → β → Prop) (g : K → β → M)
    (hW : ∀ chunk p, Worker chunk p → Safe guard none none p ∧
      ∃ xs, List.Forall₂ R chunk xs ∧ ∀ k, pending k p = (xs.map (g k)).sum)
    {samples : List α} {val : K → M} (h : ParCount Worker samples val) :
    ∃ xs, List.Forall₂ R samples xs ∧ ∀ k, val k = (xs.map (g k)).sum := by
  obtain ⟨n, programs, sched, s, hn, hp, hrun, hfin, rfl⟩ := h
  have hsafe : ∀ p ∈ programs, Safe guard none none p := by
    intro p hmem
    obtain ⟨i, hi⟩ := List.mem_iff_getElem?.1 hmem
    obtain ⟨hi', e⟩ := List.getElem?_eq_some_iff.1 hi
    have := hp.get (by rw [hp.length_eq]; exact hi') hi'
    rw [List.get_eq_getElem, List.get_eq_getElem, e] at this
    exact (hW _ _ this).1
  have hval : ∀ k, s.val k = (programs.map (pending k)).sum := by
    intro k
    rw [run_total guard _ programs hsafe sched s hrun hfin k, zero_add]
  have : ∃ xs, List.Forall₂ R (chunks n samples).flatten xs ∧ ∀ k, (programs.map (pending k)).sum = (xs.map (g k)).sum := by
    clear hrun hfin hsafe hval
    generalize chunks n samples = cs at hp
    induction hp with
    | nil => exact ⟨[], .nil, fun _ => rfl⟩
    | cons h1 _ ih =>
      obtain ⟨ys, h2, h3⟩ := ih
      obtain ⟨_, xs, h4, h5⟩ := hW _ _ h1
      refine ⟨xs ++ ys, ?_, fun k => ?_⟩
      · rw [List.flatten_cons]
        exact List.rel_append h4 h2
      · rw [List.map_cons, List.sum_cons, h3, h5, List.map_append, List.sum_append]
  obtain ⟨xs, h1, h2⟩ := this
  rw [chunks_flatten n hn] at h1
  exact ⟨xs, h1, fun k => by rw [hval, h2]⟩

namespace FreqTable
variable {K : Type} [DecidableEq K]

theorem get?_add (t : FreqTable K) (k k' : K) (n : Nat) :
    (t.add k n).get? k' = if k = k' then some ((t.get? k').getD 0 + n) else t.get? k' := by
  induction t with
  | nil =>
    simp only [add, get?]
    split <;> simp
  | cons e t ih =>
    simp only [add]
    by_cases h : e.1 = k
    · subst h
      rw [if_pos rfl]
      simp only [get?]
      by_cases h' : e.1 = k' <;> simp [h']
    · rw [if_neg h]
      simp only [get?]
      by_cases h' : e.1 = k'
      · rw [if_pos h', if_pos h', if_neg (by rintro rfl; exact h h')]
      · rw [if_neg h', if_neg h', ih]

theorem incr_eq (t : FreqTable K) (k : K) : t.incr k = t.add k 1 := by
  induction t with
  | nil => rfl
  | cons e t ih => simp only [incr, add, ih]

theorem keys_add (t : FreqTable K) (k k' : K) (n : Nat) :
    k' ∈ (t.add k n).map (·.1) ↔ k' = k ∨ k' ∈ t.map (·.1) := by
  induction t with
  | nil => simp [add]
  | cons e t ih =>
    simp only [add]
    by_cases h : e.1 = k
    · rw [if_pos h]
      simp only [List.map_cons, List.mem_cons, h]
      tauto
    · rw [if_neg h, List.map_cons, List.map_cons, List.mem_cons, List.mem_cons, ih]
      tauto

theorem nodup_add (t : FreqTable K) (k : K) (n : Nat) (h : (t.map (·.1)).Nodup) : ((t.add k n).map (·.1)).Nodup := by
  induction t with
  | nil => simp [add]
  | cons e t ih =>
    rw [List.map_cons, List.nodup_cons] at h
    simp only [add]
    by_cases hk : e.1 = k
    · rw [if_pos hk, List.map_cons, List.nodup_cons]
      exact h
    · rw [if_neg hk, List.map_cons, List.nodup_cons, keys_add]
      exact ⟨by rintro (h' | h'); exact hk h'; exact h.1 h', ih h.2⟩

/-- In a table without repeated keys the entries are what `get?` finds. -/
theorem mem_iff_get? {t : FreqTable K} (h : (t.map (·.1)).Nodup) (k : K) (n : Nat) : (k, n) ∈ t ↔ t.get? k = some n := by
  induction t with
  | nil => simp [get?]
  | cons e t ih =>
    rw [List.map_cons, List.nodup_cons] at h
    simp only [get?, List.mem_cons]
    by_cases hk : e.1 = k
    · rw [if_pos hk]
      constructor
      · rintro (h' | h')
        · rw [← h']
        · exact absurd (List.mem_map.2 ⟨_, h', rfl⟩) (hk ▸ h.1)
      · intro h'
        left
        rw [← hk, ← Option.some.inj h']
    · rw [if_neg hk, ih h.2]
      constructor
      · rintro (h' | h')
        · rw [← h'] at hk; simp at hk
        · exact h'
      · exact Or.inr

theorem mem_keys_iff {t : FreqTable K} (k : K) : k ∈ t.map (·.1) ↔ ∃ n, t.get? k = some n := by
  induction t with
  | nil => simp [get?]
  | cons e t ih =>
    simp only [get?, List.map_cons, List.mem_cons]
    by_cases hk : e.1 = k
    · simp [hk]
    · rw [if_neg hk, ← ih]
      constructor
      · rintro (h | h)
        · exact absurd h.symm hk
        · exact h
      · exact Or.inr

/-- Adding all entries of a listing. -/
theorem get?_foldl (entries : List (K × Nat)) (t : FreqTable K) (k : K) :
    ((entries.foldl (fun t e => t.add e.1 e.2) t).get? k).getD 0 = (t.get? k).getD 0 + entrySum k entries := by
  induction entries generalizing t with
  | nil => simp [entrySum]
  | cons e entries ih =>
    rw [List.foldl_cons, ih, get?_add]
    by_cases h : e.1 = k
    · simp [h, entrySum]; omega
    · simp [h, entrySum]

theorem nodup_foldl (entries : List (K × Nat)) (t : FreqTable K) (h : (t.map (·.1)).Nodup) :
    ((entries.foldl (fun t e => t.add e.1 e.2) t).map (·.1)).Nodup := by
  induction entries generalizing t with
  | nil => exact h
  | cons e entries ih => exact ih _ (nodup_add _ _ _ h)

theorem keys_foldl (entries : List (K × Nat)) (t : FreqTable K) (k : K) :
    k ∈ (entries.foldl (fun t e => t.add e.1 e.2) t).map (·.1) ↔ k ∈ t.map (·.1) ∨ k ∈ entries.map (·.1) := by
  induction entries generalizing t with
  | nil => simp
  | cons e entries ih =>
    rw [List.foldl_cons, ih, keys_add, List.map_cons, List.mem_cons]
    tauto

theorem foldl_incr (ks : List K) (t : FreqTable K) :
    ks.foldl incr t = (ks.map fun k => (k, 1)).foldl (fun t e => t.add e.1 e.2) t := by
  induction ks generalizing t with
  | nil => rfl
  | cons k ks ih => rw [List.foldl_cons, List.map_cons, List.foldl_cons, ih, incr_eq]

theorem entrySum_ones [BEq K] [LawfulBEq K] (k : K) (ks : List K) : entrySum k (ks.map fun k => (k, 1)) = ks.count k := by
  induction ks with
  | nil => rfl
  | cons x ks ih =>
    unfold entrySum at ih ⊢
    simp only [List.map_cons, List.sum_cons, ih, List.count_cons]
    by_cases h : x = k <;> simp [h]; omega

end FreqTable

/-- The entries of a listing of `val` add up to `val`. -/
theorem entrySum_iteration {K : Type} [DecidableEq K] {val : K → Nat} {entries : List (K × Nat)} (h : Iteration val entries) (k : K) :
    entrySum k entries = val k := by
  obtain ⟨h1, h2⟩ := h
  have key : ∀ entries : List (K × Nat), (entries.map (·.1)).Nodup → ∀ n, (k, n) ∈ entries → entrySum k entries = n := by
    intro entries
    induction entries with
    | nil => intro _ n h; simp at h
    | cons e entries ih =>
      intro hnd n hn
      rw [List.map_cons, List.nodup_cons] at hnd
      unfold entrySum at ih ⊢
      rw [List.map_cons, List.sum_cons]
      rcases List.mem_cons.1 hn with rfl | hn
      · rw [if_pos rfl]
        have : (entries.map fun e => if e.1 = k then e.2 else 0).sum = 0 := by
          refine List.sum_eq_zero ?_
          intro x hx
          obtain ⟨e, he, rfl⟩ := List.mem_map.1 hx
          rw [if_neg]
          intro hk
          exact hnd.1 (List.mem_map.2 ⟨e, he, hk⟩)
        omega
      · rw [ih hnd.2 n hn, if_neg]
        · omega
        · intro hk
          exact hnd.1 (List.mem_map.2 ⟨_, hn, hk.symm⟩)
  by_cases hk : val k = 0
  · rw [hk]
    unfold entrySum
    refine List.sum_eq_zero ?_
    intro x hx
    obtain ⟨e, he, rfl⟩ := List.mem_map.1 hx
    rw [if_neg]
    rintro rfl
    exact ((h2 e.1 e.2).1 he).2 (((h2 e.1 e.2).1 he).1.symm.trans hk)
  · exact key entries h1 _ ((h2 _ _).2 ⟨rfl, hk⟩)

namespace Generator
variable {F : Type} [TrainOps F]
open ScoreOps RealOps

theorem enc_cons' (c : Char) (s : Str) : (enc (c :: s)).length = (enc [c]).length + (enc s).length := by
  unfold enc
  simp

theorem mem_prefixesUpTo (max : Nat) (suffix : Str) : ∀ (len : Nat) (pre t : Str),
    t ∈ prefixesUpTo max len pre suffix ↔
      ∃ q, q ≠ [] ∧ q <+: suffix ∧ t = pre ++ q ∧ len + (enc q).length ≤ max := by
  induction suffix with
  | nil =>
    intro len pre t
    simp only [prefixesUpTo, List.not_mem_nil, false_iff]
    rintro ⟨q, h1, h2, _⟩
    exact h1 (List.prefix_nil.1 h2)
  | cons c rest ih =>
    intro len pre t
    simp only [prefixesUpTo]
    by_cases h : len + (enc [c]).length > max
    · rw [if_pos h]
      simp only [List.not_mem_nil, false_iff]
      rintro ⟨q, h1, h2, _, h4⟩
      cases q with
      | nil => exact h1 rfl
      | cons d q =>
        obtain ⟨rfl, _⟩ := List.cons_prefix_cons.1 h2
        rw [enc_cons'] at h4
        omega
    · rw [if_neg h, List.mem_cons, ih]
      constructor
      · rintro (rfl | ⟨q, h1, h2, rfl, h4⟩)
        · exact ⟨[c], by simp, by simp, rfl, by omega⟩
        · refine ⟨c :: q, by simp, List.cons_prefix_cons.2 ⟨rfl, h2⟩, by simp, ?_⟩
          rw [enc_cons']; omega
      · rintro ⟨q, h1, h2, rfl, h4⟩
        cases q with
        | nil => exact absurd rfl h1
        | cons d q =>
          obtain ⟨rfl, h5⟩ := List.cons_prefix_cons.1 h2
          rw [enc_cons'] at h4
          cases q with
          | nil => exact Or.inl rfl
          | cons e q => exact Or.inr ⟨e :: q, by simp, h5, by simp, by omega⟩

/-- The candidates of a text are its non-empty substrings of at most `max` bytes. -/
theorem mem_candidates (max : Nat) (t : Str) : ∀ s : Str,
    t ∈ candidates max s ↔ t ≠ [] ∧ t <:+: s ∧ (enc t).length ≤ max := by
  intro s
  induction s with
  | nil =>
    simp only [candidates, List.not_mem_nil, List.infix_nil, false_iff]
    rintro ⟨h1, h2, _⟩
    exact h1 h2
  | cons c rest ih =>
    rw [candidates, List.mem_append, mem_prefixesUpTo, ih, List.infix_cons_iff]
    constructor
    · rintro (⟨q, h1, h2, rfl, h4⟩ | ⟨h1, h2, h3⟩)
      · exact ⟨by simpa using h1, Or.inl (by simpa using h2), by simpa using h4⟩
      · exact ⟨h1, Or.inr h2, h3⟩
    · rintro ⟨h1, h2 | h2, h3⟩
      · exact Or.inl ⟨t, h1, h2, by simp, by simpa using h3⟩
      · exact Or.inr ⟨h1, h2, h3⟩

/-- A pattern has a match iff it is a substring. -/
theorem occurrences_pos (pat : Str) : ∀ s : Str, 0 < occurrences pat 0 s ↔ pat <:+: s := by
  intro s
  induction s with
  | nil =>
    simp only [occurrences, List.infix_nil]
    by_cases h : pat = [] <;> simp [h]
  | cons c s ih =>
    rw [occurrences, List.infix_cons_iff, ← List.isPrefixOf_iff_prefix]
    by_cases h : pat.isPrefixOf (c :: s) = true
    · rw [if_pos h]
      exact ⟨fun _ => Or.inl h, fun _ => by omega⟩
    · rw [if_neg h, ih]
      constructor
      · exact Or.inr
      · rintro (h' | h')
        · exact absurd h' h
        · exact h'

theorem mem_insertSet (set : List Str) (t u : Str) : u ∈ insertSet set t ↔ u = t ∨ u ∈ set := by
  unfold insertSet
  by_cases h : t ∈ set
  · rw [if_pos h]
    constructor
    · exact Or.inr
    · rintro (rfl | h')
      · exact h
      · exact h'
  · rw [if_neg h, List.mem_append, List.mem_singleton]; tauto

theorem nodup_insertSet (set : List Str) (t : Str) (h : set.Nodup) : (insertSet set t).Nodup := by
  unfold insertSet
  by_cases ht : t ∈ set
  · rw [if_pos ht]; exact h
  · rw [if_neg ht]
    refine List.nodup_append.2 ⟨h, List.nodup_singleton _, ?_⟩
    intro a ha b hb
    rw [List.mem_singleton] at hb
    subst hb
    rintro rfl
    exact ht ha

theorem foldl_consider (g : Generator F) (rnd : Nat → F) : ∀ (cs : List Str) (st : List Str × Nat), st.1.Nodup →
    (cs.foldl (consider g rnd) st).1.Nodup ∧
    (∀ u ∈ st.1, u ∈ (cs.foldl (consider g rnd) st).1) ∧
    (∀ u ∈ (cs.foldl (consider g rnd) st).1, u ∈ st.1 ∨ (u ∈ cs ∧ g.allow.elim true (fun allow => allow u) = true)) ∧
    ((∀ k, lt (rnd k) g.insertProbability = true) →
      ∀ u ∈ cs, g.allow.elim true (fun allow => allow u) = true → u ∈ (cs.foldl (consider g rnd) st).1) := by
  intro cs
  induction cs with
  | nil => intro st h; exact ⟨h, fun u h => h, fun u h => Or.inl h, fun _ u h => by simp at h⟩
  | cons c cs ih =>
    intro st h
    have hc : (consider g rnd st c).1.Nodup ∧ (∀ u ∈ st.1, u ∈ (consider g rnd st c).1) ∧
        (∀ u ∈ (consider g rnd st c).1, u ∈ st.1 ∨ (u = c ∧ g.allow.elim true (fun allow => allow u) = true)) ∧
        ((∀ k, lt (rnd k) g.insertProbability = true) → g.allow.elim true (fun allow => allow c) = true →
          c ∈ (consider g rnd st c).1) := by
      unfold consider
      by_cases ha : g.allow.elim true (fun allow => allow c) = true
      · rw [if_pos ha]
        by_cases hr : lt (rnd st.2) g.insertProbability = true
        · simp only [hr, if_true]
          refine ⟨nodup_insertSet _ _ h, fun u hu => (mem_insertSet ..).2 (Or.inr hu), ?_, fun _ _ => (mem_insertSet ..).2 (Or.inl rfl)⟩
          intro u hu
          rcases (mem_insertSet ..).1 hu with rfl | hu
          · exact Or.inr ⟨rfl, ha⟩
          · exact Or.inl hu
        · simp only [hr, Bool.false_eq_true, if_false]
          exact ⟨h, fun u hu => hu, fun u hu => Or.inl hu, fun hk => absurd (hk _) hr⟩
      · rw [if_neg ha]
        exact ⟨h, fun u hu => hu, fun u hu => Or.inl hu, fun _ h' => absurd h' ha⟩
    obtain ⟨h1, h2, h3, h4⟩ := ih (consider g rnd st c) hc.1
    rw [List.foldl_cons]
    refine ⟨h1, fun u hu => h2 u (hc.2.1 u hu), ?_, ?_⟩
    · intro u hu
      rcases h3 u hu with hu | ⟨hu, ha⟩
      · rcases hc.2.2.1 u hu with hu | ⟨rfl, ha⟩
        · exact Or.inl hu
        · exact Or.inr ⟨List.mem_cons_self .., ha⟩
      · exact Or.inr ⟨List.mem_cons_of_mem _ hu, ha⟩
    · intro hk u hu ha
      rcases List.mem_cons.1 hu with rfl | hu
      · exact h2 _ (hc.2.2.2 hk ha)
      · exact h4 hk u hu ha

theorem tryInsert_facts (g : Generator F) (rnd : Nat → F) (token : Str) : ∀ (n : Nat) (st : List Str × Nat), st.1.Nodup →
    (tryInsert g rnd token n st).1.Nodup ∧
    (∀ u ∈ st.1, u ∈ (tryInsert g rnd token n st).1) ∧
    (∀ u ∈ (tryInsert g rnd token n st).1, u ∈ st.1 ∨ (u = token ∧ 0 < n)) ∧
    ((∀ k, lt (rnd k) g.insertProbability = true) → 0 < n → token ∈ (tryInsert g rnd token n st).1) := by
  intro n
  induction n with
  | zero => intro st h; exact ⟨h, fun u h => h, fun u h => Or.inl h, fun _ h => by omega⟩
  | succ n ih =>
    intro st h
    unfold tryInsert
    by_cases hr : lt (rnd st.2) g.insertProbability = true
    · rw [if_pos hr]
      refine ⟨nodup_insertSet _ _ h, fun u hu => (mem_insertSet ..).2 (Or.inr hu), ?_, fun _ _ => (mem_insertSet ..).2 (Or.inl rfl)⟩
      intro u hu
      rcases (mem_insertSet ..).1 hu with rfl | hu
      · exact Or.inr ⟨rfl, by omega⟩
      · exact Or.inl hu
    · rw [if_neg hr]
      obtain ⟨h1, h2, h3, _⟩ := ih (st.1, st.2 + 1) h
      refine ⟨h1, h2, ?_, fun hk => absurd (hk _) hr⟩
      intro u hu
      rcases h3 u hu with hu | ⟨rfl, _⟩
      · exact Or.inl hu
      · exact Or.inr ⟨rfl, by omega⟩

theorem foldl_tryInsert (g : Generator F) (rnd : Nat → F) (sample : Str) : ∀ (ts : List Str) (st : List Str × Nat), st.1.Nodup →
    let r := ts.foldl (fun st token => tryInsert g rnd token (occurrences token 0 sample) st) st
    r.1.Nodup ∧ (∀ u ∈ st.1, u ∈ r.1) ∧ (∀ u ∈ r.1, u ∈ st.1 ∨ (u ∈ ts ∧ u <:+: sample)) ∧
    ((∀ k, lt (rnd k) g.insertProbability = true) → ∀ u ∈ ts, u <:+: sample → u ∈ r.1) := by
  intro ts
  induction ts with
  | nil => intro st h; exact ⟨h, fun u h => h, fun u h => Or.inl h, fun _ u h => by simp at h⟩
  | cons c ts ih =>
    intro st h
    obtain ⟨c1, c2, c3, c4⟩ := tryInsert_facts g rnd c (occurrences c 0 sample) st h
    obtain ⟨h1, h2, h3, h4⟩ := ih _ c1
    simp only [List.foldl_cons]
    refine ⟨h1, fun u hu => h2 u (c2 u hu), ?_, ?_⟩
    · intro u hu
      rcases h3 u hu with hu | ⟨hu, ho⟩
      · rcases c3 u hu with hu | ⟨rfl, ho⟩
        · exact Or.inl hu
        · exact Or.inr ⟨List.mem_cons_self .., (occurrences_pos ..).1 ho⟩
      · exact Or.inr ⟨List.mem_cons_of_mem _ hu, ho⟩
    · intro hk u hu ho
      rcases List.mem_cons.1 hu with rfl | hu
      · exact h2 _ (c4 hk ((occurrences_pos ..).2 ho))
      · exact h4 hk u hu ho

/-- What a sample may contribute. -/
structure Taken (g : Generator F) (sample : Str) (sel : List Str) : Prop where
  nodup : sel.Nodup
  sound : ∀ t ∈ sel, Candidate g sample t
  complete : g.insertProbability = ofNat 1 → ∀ t, Candidate g sample t → t ∈ sel

omit [TrainOps F] in
theorem allow_iff (g : Generator F) (t : Str) : g.allow.elim true (fun allow => allow t) = true ↔
    ∀ allow, g.allow = some allow → allow t = true := by
  cases g.allow with
  | none => simp
  | some a => simp

theorem sampleTokens_taken (g : Generator F) {rnd : Nat → F} (hr : UnitRandom rnd) (k : Nat) (sample : Str) :
    Taken g sample (sampleTokens g rnd k sample).1 := by
  have hparts : sampleTokens g rnd k sample = (g.addedTokens ++ g.suggestedTokens).foldl
      (fun st token => tryInsert g rnd token (occurrences token 0 sample) st)
      (((partsOf g sample).flatMap (candidates g.maxTokenLength)).foldl (consider g rnd) ([], k)) := by
    unfold sampleTokens partsOf
    cases g.split <;> rfl
  rw [hparts]
  obtain ⟨a1, a2, a3, a4⟩ := foldl_consider g rnd ((partsOf g sample).flatMap (candidates g.maxTokenLength)) ([], k) List.nodup_nil
  obtain ⟨b1, b2, b3, b4⟩ := foldl_tryInsert g rnd sample (g.addedTokens ++ g.suggestedTokens) _ a1
  refine ⟨b1, ?_, ?_⟩
  · intro t ht
    rcases b3 t ht with ht | ⟨ht, ho⟩
    · rcases a3 t ht with ht | ⟨ht, ha⟩
      · simp at ht
      · obtain ⟨part, hp, hc⟩ := List.mem_flatMap.1 ht
        obtain ⟨h1, h2, h3⟩ := (mem_candidates ..).1 hc
        exact Or.inl ⟨h1, ⟨part, hp, h2⟩, h3, (allow_iff g t).1 ha⟩
    · exact Or.inr ⟨List.mem_append.1 ht, ho⟩
  · intro hp1 t ht
    have hall : ∀ k, lt (rnd k) g.insertProbability = true := by
      intro k
      rw [hp1]
      exact (hr k).2
    rcases ht with ⟨h1, ⟨part, hp, h2⟩, h3, h4⟩ | ⟨h1, h2⟩
    · exact b2 t (a4 hall t (List.mem_flatMap.2 ⟨part, hp, (mem_candidates ..).2 ⟨h1, h2, h3⟩⟩) ((allow_iff g t).2 h4))
    · exact b4 hall t (List.mem_append.2 h1) h2

theorem chunkTokens_taken (g : Generator F) {rnd : Nat → F} (hr : UnitRandom rnd) : ∀ (chunk : List Str) (k : Nat),
    List.Forall₂ (Taken g) chunk (chunkTokens g rnd k chunk) := by
  intro chunk
  induction chunk with
  | nil => intro k; exact .nil
  | cons s chunk ih => intro k; exact .cons (sampleTokens_taken g hr k s) (ih _)

theorem taken_perm {g : Generator F} {sample : Str} {a b : List Str} (h : Taken g sample b) (hp : a.Perm b) : Taken g sample a :=
  ⟨hp.nodup_iff.2 h.nodup, fun t ht => h.sound t (hp.subset ht), fun hp1 t ht => hp.symm.subset (h.complete hp1 t ht)⟩

theorem worker_facts {g : Generator F} {shard : Str → Nat} {chunk : List Str} {p : List (Op Str Nat)}
    (h : Worker g shard chunk p) : Safe shard none none p ∧
      ∃ sels, List.Forall₂ (Taken g) chunk sels ∧ ∀ k, pending k p = (sels.map (fun sel => sel.count k)).sum := by
  obtain ⟨rnd, orders, hr, ho, rfl⟩ := h
  have e : (orders.flatMap fun tokens => shardedAdds shard (tokens.map fun t => (t, 1))) =
      shardedAdds shard (orders.flatMap fun tokens => tokens.map fun t => (t, 1)) := by
    unfold shardedAdds
    rw [List.flatMap_assoc]
  rw [e]
  refine ⟨safe_sharded shard _, orders, ?_, ?_⟩
  · have := chunkTokens_taken g hr chunk 0
    revert this
    generalize chunkTokens g rnd 0 chunk = sels at ho
    clear e
    intro this
    induction this generalizing orders with
    | nil => cases ho; exact .nil
    | cons h1 _ ih =>
      cases ho with
      | cons h2 h3 => exact .cons (taken_perm h1 h2) (ih _ h3)
  · intro k
    rw [pending_sharded]
    clear ho e
    induction orders with
    | nil => rfl
    | cons o orders ih =>
      rw [List.flatMap_cons, List.map_cons, List.sum_cons, ← ih, ← FreqTable.entrySum_ones]
      unfold entrySum
      rw [List.map_append, List.sum_append]

theorem count_countP (sels : List (List Str)) (h : ∀ sel ∈ sels, sel.Nodup) (k : Str) :
    (sels.map (fun sel => sel.count k)).sum = sels.countP (fun sel => decide (k ∈ sel)) := by
  induction sels with
  | nil => rfl
  | cons sel sels ih =>
    rw [List.map_cons, List.sum_cons, ih (fun s hs => h s (List.mem_cons_of_mem _ hs)), List.countP_cons]
    have hn := h sel (List.mem_cons_self ..)
    by_cases hk : k ∈ sel
    · rw [List.count_eq_one_of_mem hn hk]; simp [hk]; omega
    · rw [List.count_eq_zero.2 hk]; simp [hk]

theorem forall₂_right {α β : Type} {R : α → β → Prop} {P : β → Prop} {as : List α} {bs : List β} (h : List.Forall₂ R as bs)
    (hp : ∀ a b, R a b → P b) : ∀ b ∈ bs, P b := by
  induction h with
  | nil => simp
  | cons h1 _ ih =>
    intro b hb
    rcases List.mem_cons.1 hb with rfl | hb
    · exact hp _ _ h1
    · exact ih b hb

/-- `feed`: there are sets of strings, one for each sample, whose members are counted. -/
theorem feed_facts {g g' : Generator F} {shard : Str → Nat} {samples : List Str} (h : Feed g shard samples g') :
    ∃ sels, List.Forall₂ (Taken g) samples sels ∧
      (∀ t, frequency g' t = frequency g t + sels.countP (fun sel => decide (t ∈ sel))) ∧
      (∀ t, t ∈ g'.frequencies.map (·.1) ↔ t ∈ g.frequencies.map (·.1) ∨ ∃ sel ∈ sels, t ∈ sel) ∧
      ((g.frequencies.map (·.1)).Nodup → (g'.frequencies.map (·.1)).Nodup) ∧
      g' = { g with frequencies := g'.frequencies } := by
  obtain ⟨val, entries, hv, hit, rfl⟩ := h
  obtain ⟨sels, h1, h2⟩ := parCount_choice shard (Taken g) (fun k (sel : List Str) => sel.count k) (fun c p hp => worker_facts hp) hv
  have h3 : ∀ k, val k = sels.countP (fun sel => decide (k ∈ sel)) := by
    intro k
    rw [h2, count_countP _ (forall₂_right h1 (fun _ _ h => h.nodup))]
  refine ⟨sels, h1, ?_, ?_, fun h => FreqTable.nodup_foldl _ _ h, rfl⟩
  · intro t
    show ((entries.foldl (fun t e => FreqTable.add t e.1 e.2) g.frequencies).get? t).getD 0 = _
    rw [FreqTable.get?_foldl, entrySum_iteration hit, h3]
    rfl
  · intro t
    show t ∈ (entries.foldl (fun t e => FreqTable.add t e.1 e.2) g.frequencies).map (·.1) ↔ _
    rw [FreqTable.keys_foldl]
    apply or_congr_right
    have : t ∈ entries.map (·.1) ↔ 0 < val t := by
      constructor
      · intro h
        obtain ⟨e, he, rfl⟩ := List.mem_map.1 h
        have := (hit.2 e.1 e.2).1 he
        omega
      · intro h
        exact List.mem_map.2 ⟨_, (hit.2 t (val t)).2 ⟨rfl, by omega⟩, rfl⟩
    rw [this, h3, List.countP_pos_iff]
    simp

end Generator
end Tokengeex

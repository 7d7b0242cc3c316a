import Verif.Proofs.Determined
import Verif.Proofs.Determined2
import Verif.Props.EM
import Verif.Proofs.Float64
import Verif.Model.Float64Train
/-
C111: training is reproducible.
-/
namespace Tokengeex
open Spec ScoreOps RealOps Parallel

/-! ### Mining -/

/-- **C111** (mining, partial) Two runs of mining on the same samples, in any order, return the same list, whatever the chunks,
threads, hash functions and sorts, if no text ties with a listed one.  Missing: with ties the claim is false (`C111_mine_false`). -/
theorem C111_mine_partial (find : Str → List Str) (shard shard' : Str → Nat) (sorter sorter' : Sorter (Str × Nat)) (hs : SortLaws sorter)
    (hs' : SortLaws sorter') (numIdioms : Nat) (samples samples' : List Str) (hp : samples.Perm samples')
    (result result' : List (Str × Nat)) (h : Miner.Mine find shard sorter numIdioms samples result)
    (h' : Miner.Mine find shard' sorter' numIdioms samples' result')
    (hno : ∀ e ∈ result, ∀ t, matchCount find samples t = e.2 → t = e.1) : result = result' := by
  obtain ⟨val, entries, hv, ⟨nd, mem⟩, rfl⟩ := h
  obtain ⟨val', entries', hv', ⟨nd', mem'⟩, rfl⟩ := h'
  have e1 : val = matchCount find samples := funext fun t =>
    parCount_sum shard (fun k s => (find s).count k) (fun c p hp => Miner.worker_safe hp) hv t
  have e2 : val' = matchCount find samples' := funext fun t =>
    parCount_sum shard' (fun k s => (find s).count k) (fun c p hp => Miner.worker_safe hp) hv' t
  have e3 : matchCount find samples' = matchCount find samples := funext fun t => (hp.map _).symm.sum_eq
  rw [e1] at mem
  rw [e2, e3] at mem'
  obtain ⟨p1, q1⟩ := sort_counts hs entries
  obtain ⟨p2, q2⟩ := sort_counts hs' entries'
  have hperm : entries.Perm entries' := (List.perm_ext_iff_of_nodup (nd.of_map _) (nd'.of_map _)).2 fun e => by
    rw [show e = (e.1, e.2) from rfl, mem, mem']
  refine take_unique (·.2) _ _ _ ((p1.trans hperm).trans p2.symm) q1 q2 ?_
  intro a ha b hb hab
  have hb' := (mem b.1 b.2).1 (p1.subset hb)
  have := hno a ha b.1 (by rw [hb'.1]; exact hab.symm)
  exact Prod.ext this.symm hab

/-- The characters of a text. -/
def everyChar (s : Str) : List Str := s.map fun c => [c]

theorem mine_ab (sorter : Sorter (Str × Nat)) (entries : List (Str × Nat)) (hnd : (entries.map (·.1)).Nodup)
    (hmem : ∀ k n, (k, n) ∈ entries ↔ matchCount everyChar [['a', 'b']] k = n ∧ n ≠ 0) :
    Miner.Mine everyChar (fun _ => 0) sorter 1 [['a', 'b']] ((sorter.run (fun a b => compare b.2 a.2) entries).take 1) := by
  obtain ⟨val, hv⟩ := parCount_exists (Worker := Miner.Worker everyChar (fun _ => 0)) (fun _ => 0) 1 (by omega) [['a', 'b']] (by
    intro chunk _
    exact ⟨_, ⟨_, .refl _, rfl⟩, safe_sharded (fun _ => 0) _⟩)
  have e1 : val = matchCount everyChar [['a', 'b']] := funext fun t =>
    parCount_sum (fun _ => 0) (fun k s => (everyChar s).count k) (fun c p hp => Miner.worker_safe hp) hv t
  exact ⟨val, entries, hv, ⟨hnd, by rw [e1]; exact hmem⟩, rfl⟩

theorem matchCount_ab (k : Str) : matchCount everyChar [['a', 'b']] k = if k = ['a'] ∨ k = ['b'] then 1 else 0 := by
  simp only [matchCount, everyChar, List.map_cons, List.map_nil, List.sum_cons, List.sum_nil, List.count_cons, List.count_nil,
    beq_iff_eq]
  by_cases h1 : k = ['a']
  · subst h1; decide
  · by_cases h2 : k = ['b']
    · subst h2; decide
    · rw [if_neg (fun h => h2 h.symm), if_neg (fun h => h1 h.symm), if_neg (by tauto)]
      rfl

/-- **C111** is false for mining with ties: one run on the sample `"ab"` reports `a` as the most frequent character, another
one `b`, with the same hash function and sort; only the order in which the table is listed differs. -/
theorem C111_mine_false : ∃ (find : Str → List Str) (shard : Str → Nat) (sorter : Sorter (Str × Nat)) (samples : List Str),
    SortLaws sorter ∧ Miner.Mine find shard sorter 1 samples [(['a'], 1)] ∧ Miner.Mine find shard sorter 1 samples [(['b'], 1)] := by
  refine ⟨everyChar, fun _ => 0, insertSorter _, [['a', 'b']], insertSorter_laws _, ?_, ?_⟩
  · refine mine_ab (insertSorter _) [(['a'], 1), (['b'], 1)] (by decide) ?_
    intro k n
    rw [matchCount_ab]
    by_cases h : k = ['a'] ∨ k = ['b']
    · rw [if_pos h]
      rcases h with rfl | rfl <;> simp <;> omega
    · rw [if_neg h]
      simp only [List.mem_cons, List.not_mem_nil, or_false, Prod.mk.injEq]
      constructor
      · rintro (⟨h1, _⟩ | ⟨h1, _⟩) <;> exact absurd h1 (by tauto)
      · rintro ⟨rfl, h1⟩; exact absurd rfl h1
  · refine mine_ab (insertSorter _) [(['b'], 1), (['a'], 1)] (by decide) ?_
    intro k n
    rw [matchCount_ab]
    by_cases h : k = ['a'] ∨ k = ['b']
    · rw [if_pos h]
      rcases h with rfl | rfl <;> simp <;> omega
    · rw [if_neg h]
      simp only [List.mem_cons, List.not_mem_nil, or_false, Prod.mk.injEq]
      constructor
      · rintro (⟨h1, _⟩ | ⟨h1, _⟩) <;> exact absurd h1 (by tauto)
      · rintro ⟨rfl, h1⟩; exact absurd rfl h1

/-- In `"aba"` the character `a` is the only one that occurs twice, so it is always the one reported. -/
example (result : List (Str × Nat)) (h : Miner.Mine everyChar (fun _ => 0) (insertSorter _) 1 [['a', 'b', 'a']] result)
    (result' : List (Str × Nat)) (h' : Miner.Mine everyChar List.length (insertSorter _) 1 [['a', 'b', 'a']] result') : result = result' := by
  have hr := (C47_mine everyChar (fun _ => 0) (insertSorter _) (insertSorter_laws _) 1 [['a', 'b', 'a']]).2 result h
  have hcnt : ∀ k : Str, matchCount everyChar [['a', 'b', 'a']] k = (if k = ['a'] then 2 else 0) + if k = ['b'] then 1 else 0 := by
    intro k
    simp only [matchCount, everyChar, List.map_cons, List.map_nil, List.sum_cons, List.sum_nil, List.count_cons, List.count_nil,
      beq_iff_eq]
    by_cases h1 : k = ['a']
    · subst h1; decide
    · by_cases h2 : k = ['b']
      · subst h2; decide
      · rw [if_neg (fun h => h1 h.symm), if_neg (fun h => h2 h.symm), if_neg h1, if_neg h2]
  refine C111_mine_partial everyChar _ _ _ _ (insertSorter_laws _) (insertSorter_laws _) 1 _ _ (.refl _) result result' h h' ?_
  -- the single entry is `a`
  have ha : ['a'] ∈ result.map (·.1) := by
    by_contra hn
    obtain ⟨h1, h2⟩ := hr.2.2.2.2 ['a'] (by rw [hcnt]; decide) hn
    obtain ⟨e, he⟩ := List.length_eq_one_iff.1 h1
    have hin : e ∈ result := by rw [he]; simp
    have h3 := h2 e hin
    have h4 := hr.2.2.1 e.1 e.2 hin
    rw [hcnt] at h3 h4
    have : e.1 ≠ ['a'] := fun x => hn (List.mem_map.2 ⟨e, hin, x⟩)
    rw [if_neg this] at h4
    have h5 : (if (['a'] : Str) = ['a'] then 2 else 0) + (if (['a'] : Str) = ['b'] then 1 else 0) = 2 := by decide
    rw [h5] at h3
    by_cases h6 : e.1 = ['b']
    · rw [if_pos h6] at h4; omega
    · rw [if_neg h6] at h4; omega
  obtain ⟨e₀, hin, h0⟩ := List.mem_map.1 ha
  intro e he t ht
  have hlen := hr.2.1
  have heq : e = e₀ := by
    rcases result with _ | ⟨x, _ | ⟨y, r⟩⟩
    · simp at hin
    · rw [List.mem_singleton] at he hin; rw [he, hin]
    · simp at hlen
  subst heq
  have h4 := (hr.2.2.1 e.1 e.2 he).1
  rw [h0, hcnt] at h4
  have h5 : (if (['a'] : Str) = ['a'] then 2 else 0) + (if (['a'] : Str) = ['b'] then 1 else 0) = 2 := by decide
  rw [h5] at h4
  rw [h4, hcnt] at ht
  rw [h0]
  by_contra hta
  rw [if_neg hta] at ht
  by_cases htb : t = ['b']
  · rw [if_pos htb] at ht; omega
  · rw [if_neg htb] at ht; omega

/-! ### Generating -/

theorem realCountOrder : Generator.CountOrder ℝ where
  total a b := by
    simp only [ScoreOps.le, decide_eq_true_eq]
    exact le_total _ _
  trans a b c := by
    simp only [ScoreOps.le, decide_eq_true_eq]
    exact le_trans
  antisymm a b := by
    simp only [ScoreOps.le, decide_eq_true_eq]
    exact le_antisymm

theorem F64.ofNat_shape (n : Nat) : F64.ofNat n = .inf false ∨ ∃ k, k < F64.limit ∧ F64.ofNat n = .num false k := by
  unfold F64.ofNat F64.round
  generalize F64.roundMag _ 1 = k
  by_cases h : k < F64.limit
  · rw [if_pos h]; exact Or.inr ⟨k, h, rfl⟩
  · rw [if_neg h]; exact Or.inl rfl

theorem F64.ofNat_ne_nan (n : Nat) : F64.ofNat n ≠ .nan := by
  rcases F64.ofNat_shape n with h | ⟨k, _, h⟩ <;> rw [h] <;> simp

theorem f64CountOrder [Elementary] : Generator.CountOrder F64 where
  total a b := F64.orderLaws.total (F64.ofNat_ne_nan a) (F64.ofNat_ne_nan b)
  trans a b c := F64.orderLaws.trans (F64.ofNat_ne_nan a) (F64.ofNat_ne_nan b) (F64.ofNat_ne_nan c)
  antisymm a b h h' := by
    have h1 : F64.le (F64.ofNat a) (F64.ofNat b) = true := h
    have h2 : F64.le (F64.ofNat b) (F64.ofNat a) = true := h'
    show F64.ofNat a = F64.ofNat b
    simp only [F64.le, decide_eq_true_eq] at h1 h2
    have hk : (F64.ofNat a).key = (F64.ofNat b).key := by omega
    clear h h' h1 h2
    rcases F64.ofNat_shape a with h | ⟨k, hk1, h⟩ <;> rcases F64.ofNat_shape b with h' | ⟨k', hk2, h'⟩ <;> rw [h, h'] at hk ⊢ <;>
      rw [F64.key.eq_def, F64.key.eq_def] at hk <;> simp at hk
    · omega
    · omega
    · rw [hk]

section
variable {F : Type} [TrainOps F]

theorem fed_frequency_perm {max : Nat} {split : Option (Str → List Str)} {allow : Option (Str → Bool)}
    {added suggested fed fed' : List Str} (hp : fed.Perm fed') {g g' : Generator F}
    (h : Fed max (ofNat 1) split allow added suggested fed g) (h' : Fed max (ofNat 1) split allow added suggested fed' g') (t : Str) :
    frequency g t = frequency g' t := by
  classical
  rw [C46_exact max split allow added suggested fed g h t, C46_exact max split allow added suggested fed' g' h' t]
  congr 1
  rw [hp.countP_eq]
  refine List.countP_congr fun s _ => ?_
  obtain ⟨_, _, _, _, _, c1⟩ := Generator.fed_facts h
  obtain ⟨_, _, _, _, _, c2⟩ := Generator.fed_facts h'
  rw [c1, c2]
  exact Iff.rfl

end

/-- **C111** (generating, partial) With insert probability 1, two generators with the same configuration that were fed the same
samples, in any order and any number of calls, generate the same tokens with the same scores, whatever the chunks, threads, hash
functions and sorts, if no counted string that is left out ties with one that is in the vocabulary merely because it was counted.
The order of the tokens may differ among those with equal scores.  Missing: with such ties the claim is false
(`C111_generate_false`). -/
theorem C111_generate_partial (max' : Nat) (split : Option (Str → List Str)) (allow : Option (Str → Bool))
    (added suggested fed fed' : List Str) (hp : fed.Perm fed') (g g' : Generator ℝ)
    (h : Fed max' (ofNat 1) split allow added suggested fed g) (h' : Fed max' (ofNat 1) split allow added suggested fed' g')
    (byFreq byFreq' : Sorter (Str × Nat)) (hf : SortLaws byFreq) (hf' : SortLaws byFreq')
    (byScore byScore' : Sorter (ScoredToken ℝ)) (hs : SortLaws byScore) (hs' : SortLaws byScore') (size : Nat)
    (w w' : List (ScoredToken ℝ)) (hg : Generator.Generate g byFreq byScore size w) (hg' : Generator.Generate g' byFreq' byScore' size w')
    (hno : ∀ s t, (∃ u ∈ w, u.value = enc s) → 1 < (enc s).length → s ∉ added → s ∉ suggested → (∀ u ∈ w, u.value ≠ enc t) →
      1 < (enc t).length → 0 < frequency g t → frequency g s ≠ frequency g t) :
    w.Perm w' ∧ w.map (·.score) = w'.map (·.score) :=
  Generator.generate_unique realCountOrder h h' (fed_frequency_perm hp h h') hf hf' hs hs' hg hg' hno

/-- **C111** (generating with doubles, partial) The same with doubles, for every logarithm: the scores are the same to the last
bit, since they are added up in the same order. -/
theorem C111_generate_doubles_partial [Elementary] (max' : Nat) (split : Option (Str → List Str)) (allow : Option (Str → Bool))
    (added suggested fed fed' : List Str) (hp : fed.Perm fed') (g g' : Generator F64)
    (h : Fed max' (ofNat 1) split allow added suggested fed g) (h' : Fed max' (ofNat 1) split allow added suggested fed' g')
    (byFreq byFreq' : Sorter (Str × Nat)) (hf : SortLaws byFreq) (hf' : SortLaws byFreq')
    (byScore byScore' : Sorter (ScoredToken F64)) (hs : SortLaws byScore) (hs' : SortLaws byScore') (size : Nat)
    (w w' : List (ScoredToken F64)) (hg : Generator.Generate g byFreq byScore size w)
    (hg' : Generator.Generate g' byFreq' byScore' size w')
    (hno : ∀ s t, (∃ u ∈ w, u.value = enc s) → 1 < (enc s).length → s ∉ added → s ∉ suggested → (∀ u ∈ w, u.value ≠ enc t) →
      1 < (enc t).length → 0 < frequency g t → frequency g s ≠ frequency g t) :
    w.Perm w' ∧ w.map (·.score) = w'.map (·.score) :=
  Generator.generate_unique f64CountOrder h h' (fed_frequency_perm hp h h') hf hf' hs hs' hg hg' hno

/-- Only `ab` and `cd` are allowed. -/
def allowTwo (t : Str) : Bool := t == ['a', 'b'] || t == ['c', 'd']

open Generator in
/-- What `generate` makes of two strings of two bytes if there is room for one. -/
theorem generate_two {g : Generator ℝ} (hadd : g.addedTokens = []) (hsug : g.suggestedTokens = []) (entries : List (Str × Nat))
    (x y : Str) (hx : (enc x).length = 2) (hy : (enc y).length = 2) (hxy : enc x ≠ enc y) (he : entries = [(x, 1), (y, 1)])
    {w : List (ScoredToken ℝ)} (hw : g.generateFrom (insertSorter _) (insertSorter _) 256 entries = .ok w) :
    (∃ t ∈ w, t.value = enc x) ∧ ∀ t ∈ w, t.value ≠ enc y := by
  have e := generateFrom_eq g (insertSorter _) (insertSorter _) 256 entries (by rw [hadd, hsug]; simp)
  dsimp only at e
  rw [e] at hw
  have hrun : (insertSorter (Str × Nat)).run (fun a b => compare b.2 a.2) entries = [(x, 1), (y, 1)] := by
    rw [he]
    rfl
  rw [hrun] at hw
  have hlen : (bytes 1 : Acc ℝ).vocab.length = 255 := by simp [bytes]
  have hbyte : ∀ z, (enc z).length = 2 → enc z ∉ (bytes 1 : Acc ℝ).seen := by
    intro z hz hin
    obtain ⟨n, _, e⟩ := List.mem_map.1 hin
    rw [← e] at hz
    simp at hz
  have hloop : loop 256 (items g [(x, 1), (y, 1)]) (bytes 1 : Acc ℝ) =
      { vocab := (bytes 1 : Acc ℝ).vocab ++ [Item.token (x, 1, false)], seen := (bytes 1 : Acc ℝ).seen ++ [enc x] } := by
    unfold items
    rw [hadd, hsug]
    simp only [List.map_nil, List.nil_append, List.map_cons]
    rw [loop, if_neg (by omega), if_pos ⟨hbyte x hx, by simp only; omega⟩]
    rw [loop_full _ _ _ (by rw [List.length_append, hlen]; simp)]
  have hloop' : loop 256 (items g [(x, 1), (y, 1)]) (bytes ((([(x, 1), (y, 1)] : List (Str × Nat)).head?.map (fun x => x.2)).getD 1) : Acc ℝ) =
      { vocab := (bytes 1 : Acc ℝ).vocab ++ [Item.token (x, 1, false)], seen := (bytes 1 : Acc ℝ).seen ++ [enc x] } := hloop
  rw [hloop'] at hw
  generalize hv : (insertSorter (ScoredToken ℝ)).run _ _ = v at hw
  have hperm : v.Perm ((bytes 1 : Acc ℝ).vocab ++ [Item.token (x, 1, false)]) := by
    rw [← hv]
    exact (insertSorter_laws _ _ _).1
  have hwv : w = logprobs v := by
    by_cases hall : (logprobs v).all (fun t => TrainOps.isNormal t.score) = true
    · rw [if_pos hall] at hw; cases hw; rfl
    · rw [if_neg hall] at hw; cases hw
  have hvals : w.map (·.value) = v.map (·.value) := by
    rw [hwv]
    exact logprobs_map v (fun v _ => v)
  have hmem : ∀ b, (∃ t ∈ w, t.value = b) ↔ b ∈ (bytes 1 : Acc ℝ).seen ∨ b = enc x := by
    intro b
    rw [← List.mem_map, hvals, (hperm.map _).mem_iff, List.map_append, List.mem_append, (bytes_consistent 1).1]
    simp [Item.token]
  refine ⟨(hmem _).2 (Or.inr rfl), fun t ht et => ?_⟩
  rcases (hmem _).1 ⟨t, ht, et⟩ with h | h
  · exact hbyte y hy h
  · exact hxy h.symm

/-- **C111** is false for generating with ties: from the sample `"abcd"`, of which `ab` and `cd` are allowed, one run of `generate(256)`
takes `ab` and another one `cd`, with the same sorts; only the order in which the table is listed differs. -/
theorem C111_generate_false : ∃ (g : Generator ℝ) (byFreq : Sorter (Str × Nat)) (byScore : Sorter (ScoredToken ℝ)) (w w' : List (ScoredToken ℝ)),
    Fed 2 (ofNat 1) none (some allowTwo) [] [] [['a', 'b', 'c', 'd']] g ∧ SortLaws byFreq ∧ SortLaws byScore ∧
    Generator.Generate g byFreq byScore 256 w ∧ Generator.Generate g byFreq byScore 256 w' ∧
    ((∃ t ∈ w, t.value = enc ['a', 'b']) ∧ ∀ t ∈ w, t.value ≠ enc ['c', 'd']) ∧
    ((∃ t ∈ w', t.value = enc ['c', 'd']) ∧ ∀ t ∈ w', t.value ≠ enc ['a', 'b']) := by
  classical
  have hx : ∃ x : ℝ, le zero x = true ∧ lt x (ofNat 1) = true :=
    ⟨0, by simp [ScoreOps.le, ScoreOps.zero], by simp [ScoreOps.lt, RealOps.ofNat]⟩
  obtain ⟨g, hg⟩ := (C46_feed (Generator.new 2 (ofNat 1 : ℝ) none (some allowTwo) [] []) (fun _ => 0) [['a', 'b', 'c', 'd']]).1 hx
  have hfed := Fed.feed (Fed.new (max := 2) (prob := (ofNat 1 : ℝ)) (split := none) (allow := some allowTwo)
    (added := []) (suggested := [])) hg
  rw [List.nil_append] at hfed
  obtain ⟨_, _, _, hnd, _, hconf⟩ := Generator.fed_facts hfed
  have hadd : g.addedTokens = [] := by rw [hconf]; rfl
  have hsug : g.suggestedTokens = [] := by rw [hconf]; rfl
  have hcand : ∀ t, Candidate g ['a', 'b', 'c', 'd'] t ↔ t = ['a', 'b'] ∨ t = ['c', 'd'] := by
    intro t
    rw [hconf]
    constructor
    · rintro (⟨_, _, _, h⟩ | ⟨h | h, _⟩)
      · have := h allowTwo rfl
        simpa [allowTwo] using this
      · exact absurd h (by simp [Generator.new])
      · exact absurd h (by simp [Generator.new])
    · intro h
      refine Or.inl ⟨?_, ⟨['a', 'b', 'c', 'd'], by simp [partsOf, Generator.new], ?_⟩, ?_, ?_⟩
      · rcases h with rfl | rfl <;> simp
      · rcases h with rfl | rfl <;> decide
      · change (enc t).length ≤ 2
        rcases h with rfl | rfl <;> decide
      · rintro allow e
        obtain rfl := Option.some.inj e
        rcases h with rfl | rfl <;> decide
  have hfreq : ∀ t, frequency g t = if t = ['a', 'b'] ∨ t = ['c', 'd'] then 1 else 0 := by
    intro t
    rw [C46_exact 2 none (some allowTwo) [] [] _ g hfed t]
    rw [List.countP_cons, List.countP_nil]
    simp only [List.count_nil, Nat.zero_add, decide_eq_true_eq]
    exact if_congr (hcand t) rfl rfl
  have hmem : ∀ e : Str × Nat, e ∈ g.frequencies ↔ e = (['a', 'b'], 1) ∨ e = (['c', 'd'], 1) := by
    intro e
    have hk := Generator.fed_positive hfed e.1
    rw [FreqTable.mem_keys_iff] at hk
    rw [show e = (e.1, e.2) from rfl, FreqTable.mem_iff_get? hnd]
    have hfr := hfreq e.1
    unfold frequency at hk hfr
    simp only [Prod.mk.injEq]
    cases hget : FreqTable.get? g.frequencies e.1 with
    | none =>
      rw [hget] at hfr
      simp only [Option.getD_none] at hfr
      by_cases h : e.1 = ['a', 'b'] ∨ e.1 = ['c', 'd']
      · rw [if_pos h] at hfr; omega
      · constructor
        · intro h; cases h
        · rintro (⟨h', _⟩ | ⟨h', _⟩) <;> exact absurd h' (by tauto)
    | some k =>
      rw [hget] at hfr hk
      simp only [Option.getD_some] at hfr hk
      have hpos := hk.1 ⟨k, rfl⟩
      by_cases h : e.1 = ['a', 'b'] ∨ e.1 = ['c', 'd']
      · rw [if_pos h] at hfr
        subst hfr
        constructor
        · intro h'
          have : 1 = e.2 := Option.some.inj h'
          rcases h with h | h
          · exact Or.inl ⟨h, this.symm⟩
          · exact Or.inr ⟨h, this.symm⟩
        · rintro (⟨_, h'⟩ | ⟨_, h'⟩) <;> rw [h']
      · rw [if_neg h] at hfr; omega
  have hp₁ : [((['a', 'b'] : Str), 1), (['c', 'd'], 1)].Perm g.frequencies :=
    (List.perm_ext_iff_of_nodup (by decide) (hnd.of_map _)).2 fun e => by rw [hmem]; simp
  have hp₂ : [((['c', 'd'] : Str), 1), (['a', 'b'], 1)].Perm g.frequencies :=
    (List.Perm.swap _ _ _).trans hp₁
  obtain ⟨w, hw, _⟩ := generateFrom_real hfed (insertSorter_laws _) (insertSorter_laws _) 256 _ hp₁
  obtain ⟨w', hw', _⟩ := generateFrom_real hfed (insertSorter_laws _) (insertSorter_laws _) 256 _ hp₂
  refine ⟨g, insertSorter _, insertSorter _, w, w', hfed, insertSorter_laws _, insertSorter_laws _, ⟨_, hp₁, hw⟩, ⟨_, hp₂, hw'⟩, ?_, ?_⟩
  · exact generate_two hadd hsug _ _ _ (by decide) (by decide) (by decide) rfl hw
  · exact generate_two hadd hsug _ _ _ (by decide) (by decide) (by decide) rfl hw'

/-- If there is room for all strings that were counted, none is left out and the hypothesis is met. -/
example (g : Generator ℝ) (h : Fed 2 (ofNat 1) none (some allowTwo) [] [] [['a', 'b', 'c', 'd']] g) (w w' : List (ScoredToken ℝ))
    (hg : Generator.Generate g (insertSorter _) (insertSorter _) 1000 w) (hg' : Generator.Generate g (insertSorter _) (insertSorter _) 1000 w') :
    w.Perm w' := by
  refine (C111_generate_partial 2 none (some allowTwo) [] [] _ _ (.refl _) g g h h _ _ (insertSorter_laws _) (insertSorter_laws _) _ _
    (insertSorter_laws _) (insertSorter_laws _) 1000 w w' hg hg' ?_).1
  intro s t _ _ _ _ hout hlong hpos
  exfalso
  -- the vocabulary would be full
  obtain ⟨hfull, _⟩ := C67_greedy 2 (ofNat 1) none (some allowTwo) [] [] _ g h (insertSorter _) (insertSorter_laws _) (insertSorter _)
    (insertSorter_laws _) 1000 w hg t hlong hpos hout
  have h44 := C44_generate 2 (ofNat 1) none (some allowTwo) [] [] _ g h (insertSorter _) (insertSorter_laws _) (insertSorter _)
    (insertSorter_laws _) 1000 w hg
  have hconf : g.allow = some allowTwo ∧ g.addedTokens = [] ∧ g.suggestedTokens = [] := by
    obtain ⟨_, _, _, _, _, hconf⟩ := Generator.fed_facts h
    rw [hconf]
    exact ⟨rfl, rfl, rfl⟩
  have hsub : w.map (·.value) ⊆ enc ['a', 'b'] :: enc ['c', 'd'] :: (List.range 256).map (fun n => [UInt8.ofNat n]) := by
    intro v hv
    obtain ⟨u, hu, rfl⟩ := List.mem_map.1 hv
    rcases h44.2.2.2.1 u hu with ⟨b, _, e⟩ | ⟨_, x, e, hx | hx | ⟨y, _, hx⟩⟩
    · rw [e]
      refine List.mem_cons_of_mem _ (List.mem_cons_of_mem _ (List.mem_map.2 ⟨b.toNat, List.mem_range.2 b.toNat_lt, ?_⟩))
      rw [UInt8.ofNat_toNat]
    · simp at hx
    · simp at hx
    · rcases hx with ⟨_, _, _, ha⟩ | ⟨ha | ha, _⟩
      · have := ha allowTwo hconf.1
        simp only [allowTwo, Bool.or_eq_true, beq_iff_eq] at this
        rcases this with rfl | rfl
        · rw [← e]; simp
        · rw [← e]; simp
      · rw [hconf.2.1] at ha; simp at ha
      · rw [hconf.2.2] at ha; simp at ha
  have := (List.subperm_of_subset h44.2.1 hsub).length_le
  simp only [List.length_map, List.length_cons, List.length_range] at this
  rw [hfull] at this
  simp at this

/-! ### Merging -/

/-- **C111** (merging, partial) Two runs of merging on the same samples, in any order, return the same model, whatever the chunks,
threads, hash functions, sorts and random numbers, if in no round two mergeable pairs occur equally often.  Missing: with ties
the claim is false (`C111_merge_false`). -/
theorem C111_merge_partial {F : Type} [ScoreOps F] [Mul F] (hz : le (zero : F) zero = true) (c : Merger F) (rnd rnd' : Nat → F)
    (sorter sorter' : Sorter ((Nat × Nat) × Nat)) (hs : SortLaws sorter) (hs' : SortLaws sorter')
    (samples samples' : List Str) (hp : samples.Perm samples') (listing listing' : Nat → Model F → List ((Nat × Nat) × Nat))
    (hl : Listings rnd sorter samples listing) (hl' : Listings rnd' sorter' samples' listing')
    (vocab : List (ScoredToken F)) (fuel fuel' : Nat) (m m' : Model F)
    (h : c.merge rnd listing samples fuel (Model.from_ vocab) = .ok m)
    (h' : c.merge rnd' listing' samples' fuel' (Model.from_ vocab) = .ok m')
    (hno : ∀ u, Rounds c rnd samples vocab.length vocab u → NoTies c rnd samples u) : m = m' := by
  obtain ⟨w, rfl, r, _, d⟩ := C63_rounds c rnd sorter hs samples listing hl vocab fuel m h
  obtain ⟨w', rfl, r', _, d'⟩ := C63_rounds c rnd' sorter' hs' samples' listing' hl' vocab fuel' m' h'
  rw [Merger.rounds_unique hz hp hno r r' d d']

/-- The vocabulary `a`, `b`, `c`. -/
def threeVocab : List (ScoredToken Int) := [⟨[97], -1, false⟩, ⟨[98], -1, false⟩, ⟨[99], -1, false⟩]

theorem threeVocab_encoded : EncodedAs (fun _ => 0) [['a', 'b', 'c']] threeVocab [[0, 1, 2]] := by unfold EncodedAs; decide

theorem pairCount_abc (p : Nat × Nat) : pairCount [[0, 1, 2]] p = if p = (0, 1) ∨ p = (1, 2) then 1 else 0 := by
  simp only [pairCount, adjacent, List.tail_cons, List.zip_cons_cons, List.zip_nil_right, List.map_cons, List.map_nil, List.sum_cons,
    List.sum_nil, List.count_cons, List.count_nil, beq_iff_eq]
  by_cases h1 : p = (0, 1)
  · subst h1; decide
  · by_cases h2 : p = (1, 2)
    · subst h2; decide
    · rw [if_neg (fun h => h2 h.symm), if_neg (fun h => h1 h.symm), if_neg (by tauto)]
      rfl

/-- A run may list the table of pairs in this order. -/
theorem listing_abc (entries : List ((Nat × Nat) × Nat)) (hnd : (entries.map (·.1)).Nodup)
    (hmem : ∀ p n, (p, n) ∈ entries ↔ pairCount [[0, 1, 2]] p = n ∧ n ≠ 0) :
    ∃ listing : Nat → Model Int → List ((Nat × Nat) × Nat), Listings (fun _ => 0) (insertSorter _) [['a', 'b', 'c']] listing ∧
      listing 0 (Model.from_ threeVocab) = (insertSorter _).run (fun a b => compare b.2 a.2) entries := by
  classical
  obtain ⟨L, hL⟩ := Merger.listings_exist (F := Int) (fun _ => 0) (insertSorter _) [['a', 'b', 'c']]
  obtain ⟨val, _, hv, _, _⟩ := hL 0 threeVocab ⟨_, threeVocab_encoded⟩
  have hval : val = pairCount [[0, 1, 2]] := funext fun p => C50_pairs _ (fun _ => 0) _ _ threeVocab_encoded val hv p
  refine ⟨fun r m => if m = Model.from_ threeVocab then (insertSorter _).run (fun a b => compare b.2 a.2) entries else L r m, ?_, ?_⟩
  · intro r v he
    by_cases h : Model.from_ v = Model.from_ threeVocab
    · simp only [if_pos h]
      rw [h]
      exact ⟨val, entries, hv, ⟨hnd, by rw [hval]; exact hmem⟩, rfl⟩
    · simp only [if_neg h]
      exact hL r v he
  · simp only [if_true]

theorem merge_abc {entries : List ((Nat × Nat) × Nat)} {listing : Nat → Model Int → List ((Nat × Nat) × Nat)}
    (hl : Listings (fun _ => 0) (insertSorter _) [['a', 'b', 'c']] listing)
    (h0 : listing 0 (Model.from_ threeVocab) = (insertSorter _).run (fun a b => compare b.2 a.2) entries) (t : ScoredToken Int)
    (ht : (((insertSorter _).run (fun a b => compare b.2 a.2) entries).filterMap fun e => Merger.tokenFor mergeOne threeVocab e.1).take 1 = [t]) :
    mergeOne.merge (fun _ => 0) listing [['a', 'b', 'c']] 2 (Model.from_ threeVocab) = .ok (Model.from_ (threeVocab ++ [t])) := by
  have he := Merger.mergeLoop_eq (c := mergeOne) (insertSorter_laws _) hl (start := 3) (v := threeVocab) (by decide)
    ⟨_, threeVocab_encoded⟩ 1 0
  have hlim : roundLimit mergeOne 3 threeVocab = 1 := by decide
  rw [hlim, h0, ht] at he
  change Merger.mergeLoop mergeOne (fun _ => 0) listing [['a', 'b', 'c']] 3 (1 + 1) 0 (Model.from_ threeVocab) = _
  rw [he, if_neg (by simp [mergeOne])]
  exact Merger.mergeLoop_done (by simp [threeVocab, mergeOne]) 0 1

/-- **C111** is false for merging with ties: of the sample `"abc"` one run merges `a` and `b`, another one `b` and `c`, with the
same sort; only the order in which the table is listed differs. -/
theorem C111_merge_false : ∃ (sorter : Sorter ((Nat × Nat) × Nat)) (listing listing' : Nat → Model Int → List ((Nat × Nat) × Nat)),
    SortLaws sorter ∧ Listings (fun _ => 0) sorter [['a', 'b', 'c']] listing ∧ Listings (fun _ => 0) sorter [['a', 'b', 'c']] listing' ∧
    mergeOne.merge (fun _ => 0) listing [['a', 'b', 'c']] 2 (Model.from_ threeVocab) = .ok (Model.from_ (threeVocab ++ [⟨[97, 98], -2, false⟩])) ∧
    mergeOne.merge (fun _ => 0) listing' [['a', 'b', 'c']] 2 (Model.from_ threeVocab) = .ok (Model.from_ (threeVocab ++ [⟨[98, 99], -2, false⟩])) := by
  have hmem : ∀ p n, (p, n) ∈ [((0, 1), 1), ((1, 2), 1)] ↔ pairCount [[0, 1, 2]] p = n ∧ n ≠ 0 := by
    intro p n
    rw [pairCount_abc]
    by_cases h : p = (0, 1) ∨ p = (1, 2)
    · rw [if_pos h]
      rcases h with rfl | rfl <;> simp <;> omega
    · rw [if_neg h]
      simp only [List.mem_cons, List.not_mem_nil, or_false, Prod.mk.injEq]
      constructor
      · rintro (⟨h1, _⟩ | ⟨h1, _⟩) <;> exact absurd h1 (by tauto)
      · rintro ⟨rfl, h1⟩; exact absurd rfl h1
  obtain ⟨l₁, h₁, e₁⟩ := listing_abc [((0, 1), 1), ((1, 2), 1)] (by decide) hmem
  obtain ⟨l₂, h₂, e₂⟩ := listing_abc [((1, 2), 1), ((0, 1), 1)] (by decide) (by
    intro p n
    rw [← hmem]
    simp only [List.mem_cons, List.not_mem_nil, or_false]
    tauto)
  exact ⟨insertSorter _, l₁, l₂, insertSorter_laws _, h₁, h₂, merge_abc h₁ e₁ _ (by decide), merge_abc h₂ e₂ _ (by decide)⟩

/-- Merging the only pair of `"ab"` meets the hypothesis. -/
example (u : List (ScoredToken Int)) (h : Rounds mergeOne (fun _ => 0) [['a', 'b']] mergeVocab.length mergeVocab u) :
    NoTies mergeOne (fun _ => 0) [['a', 'b']] u := by
  have hu : u = mergeVocab ∨ u = mergeVocab ++ [⟨[97, 98], -2, false⟩] := by
    induction h with
    | refl => exact Or.inl rfl
    | @tail w added _ r ih =>
      rcases ih with rfl | rfl
      · have hm : MergeOf mergeOne mergeVocab (0, 1) ⟨[97, 98], -2, false⟩ :=
          ⟨⟨[97], -1, false⟩, ⟨[98], -1, false⟩, rfl, rfl, rfl, rfl, rfl, by decide, rfl⟩
        exact Or.inr (by rw [round_ab mergeTwo_encoded (by decide) hm r])
      · have hn : NoMergeLeft mergeOne (fun _ => 0) [['a', 'b']] (mergeVocab ++ [⟨[97, 98], -2, false⟩]) :=
          ⟨_, mergeTwo_encoded', fun p t _ => by simp [pairCount, adjacent]⟩
        exact Or.inr (by rw [Merger.nil_of_noMergeLeft hn r, List.append_nil])
  intro idss he p q t t' _ _ hp hpq
  rcases hu with rfl | rfl
  · obtain rfl := Merger.encodedAs_unique mergeTwo_encoded he
    rw [pairCount_ab hp, pairCount_ab (p := q) (hpq ▸ hp)]
  · obtain rfl := Merger.encodedAs_unique mergeTwo_encoded' he
    simp [pairCount, adjacent] at hp

/-! ### Pruning -/

/-- **C111** (pruning) Over the real numbers and without dropout, two runs of pruning on the same samples, in any order, that
return, return the same model, whatever the chunks, threads, schedules and random numbers. -/
theorem C111_prune (c : Pruner ℝ) (hd : c.dropout ≤ 0) (std : Pruner.Std ℝ) (samples samples' : List Str) (hp : samples.Perm samples')
    (m m₁ m₂ : Model ℝ) (h₁ : Pruner.Returns c std samples m m₁) (h₂ : Pruner.Returns c std samples' m m₂) : m₁ = m₂ :=
  Pruner.returns_unique c std (by simpa [ScoreOps.lt, ScoreOps.zero] using hd) hp h₁ h₂

/-- Pruning `a`, `b`, `ab` down to two tokens returns, and there is only one possible result. -/
example : ∃! m', Pruner.Returns realPruner (listStd ℝ) [['a', 'b']] (Model.from_ realVocab) m' := by
  obtain ⟨m', h, _⟩ := realPruner_returns
  exact ⟨m', h, fun m'' h'' => C111_prune realPruner (le_refl _) _ _ _ (.refl _) _ _ _ h'' h⟩

end Tokengeex

import Verif.Proofs.Rounding2
import Verif.Props.NBestAny
/-
What rounding can cost: the results of `encode` and `nbest` with doubles are best up to an explicit error (C35, C57).
-/
namespace Tokengeex
open Spec ScoreOps Tokengeex.Lattice

/-! ### `nbest` -/

/-- There is room if the sentence and the scores are not astronomically big. -/
theorem room_of {len : Nat} {B : ℝ} (hB0 : 0 ≤ B) (hlen : len + 2 ≤ 2 ^ 51) (hbig : ((len : ℝ) + 2) * B ≤ 2 ^ 998) :
    Room len B (((len : ℝ) + 2) * B / 2 ^ 51) := by
  have hl : ((len : ℝ) + 2) ≤ 2 ^ 51 := by exact_mod_cast hlen
  have h0 : (0 : ℝ) ≤ (len : ℝ) + 2 := by positivity
  have hmB : 0 ≤ ((len : ℝ) + 2) * B := mul_nonneg h0 hB0
  have hδB : ((len : ℝ) + 2) * B / 2 ^ 51 ≤ B := by
    rw [div_le_iff₀ (by positivity)]
    nlinarith
  have hsum : 2 * ((len : ℝ) + 2) * (B + ((len : ℝ) + 2) * B / 2 ^ 51) ≤ 4 * (((len : ℝ) + 2) * B) := by
    have := mul_le_mul_of_nonneg_left hδB h0
    linarith
  refine ⟨hB0, by positivity, ?_, ?_⟩
  · refine hsum.trans (le_of_eq ?_)
    rw [show (53 : Nat) = 2 + 51 from rfl, pow_add, mul_assoc, mul_div_cancel₀ _ (by positivity)]
    norm_num
  · refine hsum.trans ?_
    rw [show (1000 : Nat) = 2 + 998 from rfl, pow_add, show (2 : ℝ) ^ 2 = 4 by norm_num]
    exact mul_le_mul_of_nonneg_left hbig (by norm_num)

/-- **C35** (doubles) What `nbest(n)` guarantees with IEEE doubles and its actual agenda, if the scores are finite and at
most `B` in magnitude: the segmentations it returns are ordered, and a segmentation it does not return is no better than any
returned one, in terms of exact sums and up to an error of `(N + 1) (N + 2) B / 2^50`, where `N` is the length of the sentence in
bytes.  For a sentence of 1000 bytes and scores down to -20 that is less than `2 * 10^-8`.  If fewer than `n` are returned, there
are no others. -/
theorem C35_near (p p' : VecPool) (l l₀ l₁ : Lattice F64) (hist : History p l) (sentence : List UInt8) (es : List (Entry F64))
    (hfrom : l.from_ sentence p = .ok (l₀, p')) (hes : Inside sentence.length es)
    (hins : es.foldlM (fun l e => Lattice.insert l e.pos e.id e.len e.score) l₀ = .ok l₁)
    (hid : ∀ e ∈ es, e.id ≠ 4294967294) (hnd : es.Nodup) (hgaps : NoGaps sentence.length es) (n : Nat) (hn : 2 ≤ n)
    (hcap : FewEndings sentence.length es 100000)
    (B : ℝ) (hB0 : 0 ≤ B) (hB : ∀ e ∈ es, Finite e.score ∧ |real e.score| ≤ B) (hlen : sentence.length + 2 ≤ 2 ^ 51)
    (hbig : ((sentence.length : ℝ) + 2) * B ≤ 2 ^ 998) :
    ∃ l' results paths fuel₀, (∀ fuel, fuel₀ ≤ fuel → l₁.nbest (agendaHeap F64) n fuel = .ok (l', results)) ∧
      AreResults results paths ∧ paths.Nodup ∧ (∀ q ∈ paths, PathOf sentence.length es q) ∧ paths.length ≤ n ∧
      paths.Pairwise (fun a b => exactScore b ≤
        exactScore a + ((sentence.length : ℝ) + 1) * ((sentence.length : ℝ) + 2) * B / 2 ^ 50) ∧
      (∀ other, PathOf sentence.length es other → other ∉ paths →
        paths.length = n ∧ ∀ q ∈ paths, exactScore other ≤
          exactScore q + ((sentence.length : ℝ) + 1) * ((sentence.length : ℝ) + 2) * B / 2 ^ 50) := by
  have hl := history_latticeOf hist hfrom hes hins
  subst hl
  have gr := graph_lattice hes
  have hcon := (connected_iff hes).2 hgaps
  obtain ⟨l', path, hv, hfill⟩ : ∃ l' path, (latticeOf sentence es).viterbi = .ok (l', path) ∧
      Filled (latticeOf sentence es).nodes l'.nodes
        (vFinal sentence.length (lBegins sentence.length es) (lEnds es) (lScore es)) := by
    obtain ⟨nodes, ks, hv, hfill, _⟩ := viterbi_spec hes hcon
    exact ⟨_, _, hv, hfill⟩
  obtain ⟨hs, he, hb⟩ := viterbi_same hv
  obtain ⟨g, hnodes⟩ := ngraph_lattice hes hid hs he hb
  have hbt : ∀ i, i < es.length + 2 → (l'.nodes.getD i (LNode.new 0 0 0 zero)).backtrack =
      (vFinal sentence.length (lBegins sentence.length es) (lEnds es) (lScore es) i).2 ∧
      (l'.nodes.getD i (LNode.new 0 0 0 zero)).score = lScore es i := by
    intro i hi
    have h1 := hfill i
    have h2 := (hnodes i hi).1
    rw [h2] at h1
    cases hx : (latticeOf sentence es).nodes[i]? with
    | none => rw [hx] at h1; simp at h1
    | some x =>
      rw [hx] at h1
      simp only [Option.map_some, Option.some.injEq] at h1
      rw [h1]
      exact ⟨rfl, (latticeOf_score sentence es i x hx).1⟩
  have hzero : Finite (zero : F64) ∧ |real (zero : F64)| ≤ B :=
    ⟨F64.finite_posZero, by show |real (F64.num false 0)| ≤ B; rw [F64.real_zero]; simpa using hB0⟩
  have hw : ∀ i, Finite (lScore es i) ∧ |real (lScore es i)| ≤ B := by
    intro i
    match i with
    | 0 => exact hzero
    | 1 => exact hzero
    | j + 2 =>
      cases hj : es[j]? with
      | none => simpa [lScore, hj] using hzero
      | some e => simpa [lScore, hj] using hB e (List.mem_of_getElem? hj)
  have hE := near_f64 gr hcon (room_of hB0 hlen hbig) hw F64.real_zero
  obtain ⟨hlaws, hmax⟩ := agenda_f64
  obtain ⟨ho, hperm⟩ := hlaws.push (h := { node := 1, next := [], fx := zero, gx := zero }) hlaws.nil F64.finite_posZero
  obtain ⟨found, m, h1, h2, h3, h4⟩ := loop_near (n := n) hlaws hmax g (by omega) hE
    (fun i hi => (hbt i hi).1) (fun i hi => (hbt i hi).2) (few_endings gr hnd hcap) ho hperm rfl rfl ⟨F64.finite_posZero, rfl⟩
  obtain ⟨q1, q2, q3, q4⟩ := paths_of_found hes hnd h1 (fun i hi => (hnodes i hi).2)
  have hslack : 2 * (((sentence.length : ℝ) + 1) * (((sentence.length : ℝ) + 2) * B / 2 ^ 51)) =
      ((sentence.length : ℝ) + 1) * ((sentence.length : ℝ) + 2) * B / 2 ^ 50 := by
    rw [show (51 : Nat) = 50 + 1 from rfl, pow_succ]
    ring
  rw [hslack] at h2 h3
  have hg : ∀ f ∈ found, GPath (lBegins sentence.length es) (lEnds es) sentence.length f :=
    fun f hf => vkey_gpath gr (h1.fvalid f hf)
  have hsc : ∀ f, GPath (lBegins sentence.length es) (lEnds es) sentence.length f →
      sumV real (lScore es) (fkey f) = exactScore (toPath es f) := by
    intro f hf
    have h5 := toPath_spec hf
    unfold fkey
    rw [sumV_cons, sumV_append]
    have e0 : real (lScore es 0) = 0 := F64.real_zero
    have e1 : sumV real (lScore es) [1] = 0 := by
      unfold sumV
      have : real (lScore es 1) = 0 := F64.real_zero
      simp [this]
    rw [e0, e1]
    have key : ∀ (ks : List Nat) (q : List (Entry F64)), ks.map (fun k => es[k - 2]?) = q.map some → (∀ k ∈ ks, 2 ≤ k) →
        sumV real (lScore es) ks = exactScore q := by
      intro ks
      induction ks with
      | nil =>
        intro q hq _
        cases q with
        | nil => rfl
        | cons e q => simp at hq
      | cons k ks ih =>
        intro q hq hk
        cases q with
        | nil => simp at hq
        | cons e q =>
          simp only [List.map_cons, List.cons.injEq] at hq
          rw [sumV_cons, ih q hq.2 (fun x hx => hk x (by simp [hx]))]
          have hk2 := hk k (by simp)
          obtain ⟨j, rfl⟩ : ∃ j, k = j + 2 := ⟨k - 2, by omega⟩
          have hj : es[j]? = some e := hq.1
          simp [exactScore, lScore, hj]
    rw [key f (toPath es f) h5.1 h5.2.1]
    ring
  refine ⟨l', _, _, m + 1, ?_, q1, q2, q3, q4, ?_, ?_⟩
  · intro fuel hf
    rw [nbest_eq _ _ _ _ hn, show idx (latticeOf sentence es).nodes 1 = .ok (LNode.new sentence.length 4294967295 0 zero) from rfl]
    simp only [res_bind_ok]
    rw [hv]
    simp only [res_bind_ok]
    rw [show (LNode.new sentence.length 4294967295 0 (zero : F64)).score = zero from rfl, h4 fuel (by omega)]
    simp only [res_bind_ok]
    rw [mapM_mapM_idx (fun i hi => (hnodes i hi).1) found (fun f hf => (hg f hf).lt gr)]
    rfl
  · rw [List.pairwise_map]
    refine List.Pairwise.imp_of_mem ?_ h2
    intro a b ha hb hab
    rw [hsc a (hg a ha), hsc b (hg b hb)] at hab
    exact hab
  · intro other ho hno
    obtain ⟨ks', h5, h6, h7⟩ := entries_gpath (n := sentence.length) other sentence.length ho.1 ho.2
    have hks : toPath es ks' = other := by
      have := (toPath_spec h5).1
      rw [h6] at this
      exact ((List.map_inj_right (fun x y h => Option.some.inj h)).1 this).symm
    rcases h3 (fkey ks') (gpath_vkey gr h5) rfl with ⟨f, hf, e⟩ | ⟨h8, h9⟩
    · have : f = ks' := by
        unfold fkey at e
        simpa using e
      subst this
      exact absurd (List.mem_map.2 ⟨f, hf, hks⟩) hno
    · refine ⟨by simpa using h8, ?_⟩
      intro q hq
      obtain ⟨f, hf, rfl⟩ := List.mem_map.1 hq
      have := h9 f hf
      rw [hsc f (hg f hf), hsc ks' h5, hks] at this
      exact this

/-! ### `encode` -/

theorem spelling_length {vocab : List (ScoredToken F64)} {ids : List Nat} {bs : List UInt8} (h : Spells vocab ids bs)
    (hne : ∀ i ∈ ids, ∃ v, v ≠ [] ∧ LastIndex vocab v i) : ids.length ≤ bs.length := by
  obtain ⟨toks, h1, rfl⟩ := h
  induction ids generalizing toks with
  | nil => simp
  | cons i ids ih =>
    cases toks with
    | nil => simp at h1
    | cons t toks =>
      simp only [List.map_cons, List.cons.injEq] at h1
      have := ih (fun j hj => hne j (by simp [hj])) toks h1.2
      obtain ⟨v, hv, hl⟩ := hne i (by simp)
      have ht : t.value = v := by
        have := hl.1
        rw [h1.1] at this
        simpa using this
      have : 0 < t.value.length := by rw [ht]; exact List.length_pos_iff.2 hv
      simp only [List.map_cons, List.flatten_cons, List.length_append, List.length_cons]
      omega

/-- **C57** (error) With finite scores of magnitude at most `B`, the exact score of the tokens `encode` returns is at least that
of any other segmentation, up to an error of `N (N + 1) B / 2^51` where `N` is the length of the text in bytes. -/
theorem C57_error (vocab : List (ScoredToken F64)) (B : ℝ) (hB0 : 0 ≤ B)
    (hB : ∀ t ∈ vocab, Finite t.score ∧ |real t.score| ≤ B) (s : Str) (dropout : F64) (rnd : Nat → F64)
    (hlen : (enc s).length + 1 ≤ 2 ^ 52) (hbig : (((enc s).length : ℝ) + 1) * B ≤ 2 ^ 999)
    (hd : F64.le dropout (.num false 0) = true) (ids : List Nat)
    (h : (Model.from_ vocab).encode s dropout rnd = .ok ids) (other : List Nat) (hs : Spells vocab other (enc s))
    (hcan : ∀ i ∈ other, ∃ v, v ≠ [] ∧ LastIndex vocab v i) :
    exactTotal vocab other ≤ exactTotal vocab ids + ((enc s).length : ℝ) * (((enc s).length : ℝ) + 1) * B / 2 ^ 51 := by
  have hopt := C57_encode_optimal vocab (fun t ht => by
    have := (hB t ht).1
    cases hc : t.score with
    | nan => trivial
    | inf s => trivial
    | num s n => rw [hc] at this; exact this) (.inl fun t ht => (hB t ht).1) s dropout rnd hd ids h other hs hcan
  have hl1 := spelling_length hs hcan
  have hl2 := spelling_length (C01_encode_lossless vocab s dropout rnd ids h).2 (fun i hi =>
    (C07_encode_canonical vocab s dropout rnd ids h i hi).imp fun v hv => ⟨hv.1, hv.2.1⟩)
  generalize (enc s).length = N at *
  have hN : ((N : ℝ) + 1) ≤ 2 ^ 52 := by exact_mod_cast hlen
  have h0 : (0 : ℝ) ≤ (N : ℝ) + 1 := by positivity
  have hNB : 0 ≤ ((N : ℝ) + 1) * B := mul_nonneg h0 hB0
  have hδB : ((N : ℝ) + 1) * B / 2 ^ 52 ≤ B := by
    rw [div_le_iff₀ (by positivity)]
    nlinarith
  have hδ0 : 0 ≤ ((N : ℝ) + 1) * B / 2 ^ 52 := by positivity
  have hsum : ((N : ℝ) + 1) * (B + ((N : ℝ) + 1) * B / 2 ^ 52) ≤ 2 * (((N : ℝ) + 1) * B) := by
    have := mul_le_mul_of_nonneg_left hδB h0
    linarith
  have herr : ∀ xs : List Nat, xs.length ≤ N →
      Finite (totalScore vocab xs) ∧ |real (totalScore vocab xs) - exactTotal vocab xs| ≤ N * (((N : ℝ) + 1) * B / 2 ^ 52) := by
    intro xs hxs
    obtain ⟨e1, e2⟩ := F64.foldl_err (B := B) (δ := ((N : ℝ) + 1) * B / 2 ^ 52) N
      (by
        refine hsum.trans (le_of_eq ?_)
        rw [show (53 : Nat) = 1 + 52 from rfl, pow_add, mul_assoc, mul_div_cancel₀ _ (by positivity)]
        norm_num)
      (by
        refine hsum.trans ?_
        rw [show (1000 : Nat) = 1 + 999 from rfl, pow_add, pow_one]
        exact mul_le_mul_of_nonneg_left hbig (by norm_num))
      hB0 hδ0 (xs.map (scoreOf vocab)) (.num false 0) 0
      (by
        intro x hx
        obtain ⟨i, _, rfl⟩ := List.mem_map.1 hx
        unfold scoreOf
        cases hi : vocab[i]? with
        | none => exact ⟨F64.finite_posZero, by show |real (F64.num false 0)| ≤ B; rw [F64.real_zero]; simpa using hB0⟩
        | some t => exact hB t (List.mem_of_getElem? hi))
      F64.finite_posZero (by rw [F64.real_zero]; simp) (by simpa using hxs)
    refine ⟨e1, ?_⟩
    rw [F64.real_zero, zero_add, List.map_map, List.length_map] at e2
    refine (e2 : |real (totalScore vocab xs) - exactTotal vocab xs| ≤ _).trans ?_
    exact mul_le_mul_of_nonneg_right (Nat.cast_le.2 hxs) hδ0
  obtain ⟨f1, g1⟩ := herr ids hl2
  obtain ⟨f2, g2⟩ := herr other hl1
  have hle := F64.real_lt f1 f2 hopt
  have e1 := abs_le.1 g1
  have e2 := abs_le.1 g2
  have hslack : (N : ℝ) * ((N : ℝ) + 1) * B / 2 ^ 51 = 2 * (N * (((N : ℝ) + 1) * B / 2 ^ 52)) := by
    rw [show (52 : Nat) = 51 + 1 from rfl, pow_succ]
    ring
  rw [hslack]
  linarith

/-! ### Non-vacuity -/

/-- `-2^(k - 1074)`. -/
def Spec.minusPow (k : Nat) : F64 := .num true (2 ^ k)

theorem minusPow_ok (k : Nat) (hk : k ≤ 1074) : Finite (minusPow k) ∧ |real (minusPow k)| ≤ 1 := by
  refine ⟨⟨1, k, by decide, by omega, by rw [Nat.one_mul]⟩, ?_⟩
  have h : real (minusPow k) = (-((2 ^ k : Nat) : ℝ)) * F64.ulp := by
    unfold minusPow real F64.ulp
    dsimp only
    rw [if_pos rfl]
  rw [h, neg_mul, abs_neg, abs_of_nonneg (by have := F64.ulp_pos; positivity), Nat.cast_pow, Nat.cast_ofNat]
  have h1 : (2 : ℝ) ^ k ≤ 2 ^ 1074 := pow_le_pow_right₀ (by norm_num) hk
  have h2 := mul_le_mul_of_nonneg_right h1 F64.ulp_pos.le
  have h3 : (2 : ℝ) ^ 1074 * F64.ulp = 1 := by
    unfold F64.ulp
    rw [one_div, inv_pow]
    exact mul_inv_cancel₀ (pow_ne_zero _ two_ne_zero)
  exact h2.trans (le_of_eq h3)

/-- Tokens of `"ab"`: `a` scores -2^-60, `b` -1 and `ab` -1. -/
def Spec.nearEntries : List (Entry F64) := [⟨0, 0, 1, minusPow 1014⟩, ⟨1, 1, 1, minusPow 1074⟩, ⟨0, 2, 2, minusPow 1074⟩]

theorem near_scores : ∀ e ∈ nearEntries, Finite e.score ∧ |real e.score| ≤ 1 := by
  simp only [nearEntries, List.mem_cons, List.not_mem_nil, or_false, forall_eq_or_imp, forall_eq]
  exact ⟨minusPow_ok _ (by omega), minusPow_ok _ (by omega), minusPow_ok _ (by omega)⟩

theorem near_inside : Inside 2 nearEntries := by
  intro e he
  simp only [nearEntries, List.mem_cons, List.not_mem_nil, or_false] at he
  rcases he with rfl | rfl | rfl <;> simp

/-- The hypotheses of `C35_near` hold for these tokens. -/
example (l : Lattice F64) (p : VecPool) (hist : History p l) :
    ∃ l₀ l₁ p', l.from_ [97, 98] p = .ok (l₀, p') ∧
      nearEntries.foldlM (fun l e => Lattice.insert l e.pos e.id e.len e.score) l₀ = .ok l₁ ∧
    ∃ l' results paths fuel₀, (∀ fuel, fuel₀ ≤ fuel → l₁.nbest (agendaHeap F64) 2 fuel = .ok (l', results)) ∧
      AreResults results paths ∧ paths.Nodup ∧ (∀ q ∈ paths, PathOf 2 nearEntries q) ∧
      paths.Pairwise (fun a b => exactScore b ≤ exactScore a + 12 / 2 ^ 50) := by
  obtain ⟨p', hfrom, _⟩ := from_clean l [97, 98] (history_clean hist)
  refine ⟨_, _, p', hfrom, insertAll [97, 98] nearEntries near_inside, ?_⟩
  obtain ⟨l', results, paths, fuel, h1, h2, h3, h4, h5, h6, h7⟩ := C35_near _ _ _ _ _ hist [97, 98] nearEntries hfrom near_inside
    (insertAll [97, 98] nearEntries near_inside)
    (by
      intro e he
      simp only [nearEntries, List.mem_cons, List.not_mem_nil, or_false] at he
      rcases he with rfl | rfl | rfl <;> simp)
    (by simp [nearEntries])
    (by
      intro p hp
      simp only [nearEntries, List.length_cons, List.length_nil, List.mem_cons, List.not_mem_nil, or_false,
        exists_eq_or_imp, exists_eq_left] at hp ⊢
      omega) 2 (by omega)
    (by
      classical
      refine ⟨{[], [⟨1, 1, 1, minusPow 1074⟩], [⟨0, 2, 2, minusPow 1074⟩],
        [⟨0, 0, 1, minusPow 1014⟩, ⟨1, 1, 1, minusPow 1074⟩]}, ?_, ?_⟩
      · rintro s hs ⟨p, hc⟩
        have hin := fun e he => near_inside e (hs e he)
        rcases s with _ | ⟨a, _ | ⟨b, _ | ⟨c, s⟩⟩⟩
        · simp
        · have h1 := hs a (by simp)
          simp only [nearEntries, List.mem_cons, List.not_mem_nil, or_false] at h1
          rcases h1 with rfl | rfl | rfl
          · simp [Contiguous] at hc; omega
          · simp
          · simp
        · have h1 := hs a (by simp)
          have h2 := hs b (by simp)
          simp only [nearEntries, List.mem_cons, List.not_mem_nil, or_false] at h1 h2
          rcases h1 with rfl | rfl | rfl <;> rcases h2 with rfl | rfl | rfl <;> simp [Contiguous] at hc ⊢
          all_goals omega
        · exfalso
          have h1 := hin a (by simp)
          have h2 := hin b (by simp)
          have h3 := hin c (by simp)
          simp only [Contiguous] at hc
          omega
      · refine le_trans (Finset.card_le_four) (by norm_num))
    1 (by norm_num) near_scores (by decide) (by
      calc (((([97, 98] : List UInt8).length : Nat) : ℝ) + 2) * 1 ≤ 2 ^ 3 := by norm_num
        _ ≤ 2 ^ 998 := pow_le_pow_right₀ (by norm_num) (by norm_num))
  refine ⟨l', results, paths, fuel, h1, h2, h3, h4, ?_⟩
  convert h6 using 4
  norm_num

/-- Those of `C57_error` do, too: for the tokens `a`, `b` and `ab` with these scores. -/
example (ids : List Nat) (rnd : Nat → F64)
    (h : (Model.from_ [⟨[97], minusPow 1014, false⟩, ⟨[98], minusPow 1074, false⟩,
      ⟨[97, 98], minusPow 1074, false⟩]).encode ['a', 'b'] (.num false 0) rnd = .ok ids) :
    exactTotal [⟨[97], minusPow 1014, false⟩, ⟨[98], minusPow 1074, false⟩, ⟨[97, 98], minusPow 1074, false⟩] [0, 1] ≤
    exactTotal [⟨[97], minusPow 1014, false⟩, ⟨[98], minusPow 1074, false⟩, ⟨[97, 98], minusPow 1074, false⟩] ids +
      6 / 2 ^ 51 := by
  have hsc := near_scores
  simp only [nearEntries, List.mem_cons, List.not_mem_nil, or_false, forall_eq_or_imp, forall_eq] at hsc
  have henc : (enc ['a', 'b']).length = 2 := by decide
  have hlast : ∀ (i : Nat) (x : ScoredToken F64),
      [(⟨[97], minusPow 1014, false⟩ : ScoredToken F64), ⟨[98], minusPow 1074, false⟩,
        ⟨[97, 98], minusPow 1074, false⟩][i]? = some x → ∀ j t, i < j →
      [(⟨[97], minusPow 1014, false⟩ : ScoredToken F64), ⟨[98], minusPow 1074, false⟩,
        ⟨[97, 98], minusPow 1074, false⟩][j]? = some t → t.value ≠ x.value := by
    intro i x hi j t hij hj e
    match i, j with
    | 0, 1 => simp at hi hj; subst hi hj; simp at e
    | 0, 2 => simp at hi hj; subst hi hj; simp at e
    | 1, 2 => simp at hi hj; subst hi hj; simp at e
    | i, j + 3 => simp at hj
    | i + 2, 2 => omega
    | i + 1, 1 => omega
    | i, 0 => omega
  have := C57_error [⟨[97], minusPow 1014, false⟩, ⟨[98], minusPow 1074, false⟩, ⟨[97, 98], minusPow 1074, false⟩]
    1 (by norm_num) (by simpa using hsc) ['a', 'b'] (.num false 0) rnd (by rw [henc]; decide)
    (by
      rw [henc]
      calc (((2 : Nat) : ℝ) + 1) * 1 ≤ 2 ^ 3 := by norm_num
        _ ≤ 2 ^ 999 := pow_le_pow_right₀ (by norm_num) (by norm_num))
    (by decide) ids h [0, 1] ⟨[⟨[97], minusPow 1014, false⟩, ⟨[98], minusPow 1074, false⟩], rfl, by decide⟩
    (by
      intro i hi
      simp only [List.mem_cons, List.not_mem_nil, or_false] at hi
      rcases hi with rfl | rfl
      · exact ⟨[97], by simp, ⟨_, rfl, rfl⟩, hlast 0 _ rfl⟩
      · exact ⟨[98], by simp, ⟨_, rfl, rfl⟩, hlast 1 _ rfl⟩)
  rw [henc] at this
  convert this using 2
  norm_num

end Tokengeex

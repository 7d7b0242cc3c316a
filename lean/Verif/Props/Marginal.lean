import Verif.Proofs.Marginal2
import Verif.Props.Lattice
import Mathlib.Algebra.BigOperators.Field
/-
C36: `populate_marginal` computes posterior expected counts.
-/
namespace Tokengeex
open Spec

/-- The set of all segmentations exists (there are finitely many). -/
theorem segmentations_exist (n : Nat) (es : List (Entry ℝ)) (hi : Inside n es) : ∃ segs, AllSegmentations n es segs :=
  ⟨runs hi 0 n, fun _ => mem_runs⟩

variable {n : Nat} {es : List (Entry ℝ)}

theorem partition_eq (hi : Inside n es) {segs : Finset (List Nat)} (h : AllSegmentations n es segs) :
    segs = runs hi 0 n ∧ partition es segs = total hi 0 n := by
  have : segs = runs hi 0 n := by
    ext js
    rw [h js, mem_runs]
  exact ⟨this, by rw [this]; rfl⟩

theorem occurrences_eq (hi : Inside n es) {js : List Nat} {a b : Nat} (h : Run es a js b) (id : Nat) :
    (occurrences es id js : ℝ) = ∑ j ∈ Finset.range es.length, if idOf es j = id ∧ j ∈ js then 1 else 0 := by
  unfold occurrences
  rw [Finset.sum_boole, List.countP_eq_length_filter, ← List.toFinset_card_of_nodup ((h.nodup hi).filter _)]
  congr 2
  ext j
  simp only [List.mem_toFinset, List.mem_filter, Finset.mem_filter, Finset.mem_range, beq_iff_eq]
  constructor
  · rintro ⟨h1, h2⟩
    obtain ⟨e, he⟩ := h.mem_lt j h1
    refine ⟨(List.getElem?_eq_some_iff.1 he).1, ?_, h1⟩
    rw [he] at h2
    simpa [idOf, he] using h2
  · rintro ⟨h1, h2, h3⟩
    obtain ⟨e, he⟩ := h.mem_lt j h3
    refine ⟨h3, ?_⟩
    rw [he]
    simpa [idOf, he] using h2

/-- Expected counts as sums over the tokens of the lattice. -/
theorem expectedCount_eq (hi : Inside n es) {segs : Finset (List Nat)} (h : AllSegmentations n es segs) (id : Nat) :
    expectedCount es segs id = ∑ j ∈ Finset.range es.length,
      if idOf es j = id then total hi 0 (posOf es j) * Real.exp (entryScore es j) * total hi (endOf es j) n / total hi 0 n
      else 0 := by
  obtain ⟨h1, h2⟩ := partition_eq hi h
  unfold expectedCount
  rw [h2, h1]
  have step : ∀ js ∈ runs hi 0 n, Real.exp (runScore es js) / total hi 0 n * (occurrences es id js : ℝ) =
      ∑ j ∈ Finset.range es.length, if idOf es j = id then (if j ∈ js then weight es js / total hi 0 n else 0) else 0 := by
    intro js hjs
    rw [occurrences_eq hi (mem_runs.1 hjs), Finset.mul_sum]
    apply Finset.sum_congr rfl
    intro j _
    by_cases h1 : idOf es j = id <;> by_cases h2 : j ∈ js <;> simp [h1, h2, weight]
  rw [Finset.sum_congr rfl step, Finset.sum_comm]
  apply Finset.sum_congr rfl
  intro j hj
  rw [Finset.mem_range] at hj
  have he := List.getElem?_eq_getElem hj
  by_cases hid : idOf es j = id
  · simp only [hid, if_true]
    rw [← Finset.sum_filter, ← Finset.sum_div, total_through hi he, posOf_eq he, endOf_eq he]
  · simp [hid]

/-- In every run the lengths add up. -/
theorem Spec.Run.lengths {len : Nat → Nat} (hlen : ∀ e ∈ es, e.len = len e.id) {js : List Nat} :
    ∀ {a b : Nat}, Run es a js b → a + (js.map (fun j => len (idOf es j))).sum = b := by
  induction js with
  | nil => intro a b h; simpa [Run] using h
  | cons j js ih =>
    rintro a b ⟨e, h1, h2, h3⟩
    have := ih h3
    rw [List.map_cons, List.sum_cons, show idOf es j = e.id by simp [idOf, h1], ← hlen e (List.mem_of_getElem? h1)]
    omega

theorem total_pos (hi : Inside n es) (hg : NoGaps n es) : 0 < total hi 0 n := by
  have key : ∀ p, p ≤ n → (p = n ∨ ∃ e ∈ es, e.pos = p) → 0 < total hi 0 p := by
    intro p
    induction p using Nat.strongRecOn with
    | ind p ih =>
      intro hp hb
      rcases hg p hb with rfl | ⟨e, he, hpe⟩
      · rw [total_self]; exact one_pos
      · obtain ⟨j, hj⟩ := List.getElem?_of_mem he
        have hl := (hi e he).1
        have h1 := ih e.pos (by omega) (by omega) (.inr ⟨e, he, rfl⟩)
        have h0 : 0 ≠ p := by omega
        rw [total_last hi 0 p h0]
        refine Finset.sum_pos' (fun j _ => mul_nonneg (Real.exp_pos _).le (Finset.sum_nonneg fun js _ => (weight_pos js).le)) ?_
        refine ⟨j, mem_entryNums.2 ⟨e, hj, by simpa using hpe⟩, ?_⟩
        rw [posOf_eq hj]
        exact mul_pos (Real.exp_pos _) h1
  exact key n (Nat.le_refl _) (.inl rfl)

theorem errPow_le (k : Nat) : errPow k ≤ Real.exp (k * Real.exp (-50)) := by
  unfold errPow
  rw [Real.exp_nat_mul]
  have : 1 + Real.exp (-50) ≤ Real.exp (Real.exp (-50)) := by
    have := Real.add_one_le_exp (Real.exp (-50)); linarith
  exact pow_le_pow_left₀ (by have := Real.exp_pos (-50); linarith) this k

/-- **C36** In exact arithmetic, on every lattice obtained by re-initialising after any history and inserting any
non-empty tokens inside the sentence, provided every token lies on some segmentation: `populate_marginal` does not panic,
the constant it returns is the logarithm of the probability of the sentence (the sum over its segmentations of the
exponential of their score), and the count of each token grows by its expected number of occurrences in a segmentation
drawn according to the scores.  Both hold up to the tiny error caused by `log_sum_exp` dropping terms smaller than
`e^-50` times the other: with `N` nodes, the constant is too small by at most `N e^-50`, and the counts are off by a
factor between `exp(-2 N e^-50)` and `exp(N e^-50)`. -/
theorem C36_marginal (p p' : VecPool) (l l₀ l₁ : Lattice ℝ) (hist : History p l) (sentence : List UInt8)
    (es : List (Entry ℝ)) (hfrom : l.from_ sentence p = .ok (l₀, p')) (hes : Inside sentence.length es)
    (hins : es.foldlM (fun l e => Lattice.insert l e.pos e.id e.len e.score) l₀ = .ok l₁)
    (hgaps : NoGaps sentence.length es) (hdead : NoDeadEnds sentence.length es)
    (segs : Finset (List Nat)) (hsegs : AllSegmentations sentence.length es segs)
    (expected : List ℝ) (hid : ∀ e ∈ es, e.id < expected.length) :
    ∃ expected' z, l₁.populateMarginal expected = .ok (expected', z) ∧
      z ≤ Real.log (partition es segs) ∧
      Real.log (partition es segs) ≤ z + (es.length + 2) * Real.exp (-50) ∧
      expected'.length = expected.length ∧
      ∀ i old, expected[i]? = some old → ∃ inc, expected'[i]? = some (old + inc) ∧
        expectedCount es segs i * Real.exp (-(2 * (es.length + 2) * Real.exp (-50))) ≤ inc ∧
        inc ≤ expectedCount es segs i * Real.exp ((es.length + 2) * Real.exp (-50)) := by
  have hl1 : l₁ = latticeOf sentence es := by
    obtain ⟨_, h1, _⟩ := from_clean l sentence (history_clean hist)
    rw [hfrom] at h1
    simp only [Except.ok.injEq, Prod.mk.injEq] at h1
    rw [h1.1, insertAll sentence es hes] at hins
    simpa using hins.symm
  subst hl1
  obtain ⟨alpha, A, ha1, ha2, ha3⟩ := forwardTable_spec hes hgaps
  obtain ⟨beta, B, hb1, hb2, hb3⟩ := backwardTable_spec hes hdead
  have hZ := total_pos hes hgaps
  obtain ⟨hsr, hpart⟩ := partition_eq hes hsegs
  have hE : Holds expected expected.length (fun i => expected[i]?.getD 0) := by
    refine ⟨rfl, fun i hi => ?_⟩
    simp only [List.getElem?_eq_getElem hi, Option.getD_some]
  obtain ⟨expected', E', he1, he2, he3⟩ := addMarginals_eq (sentence := sentence) (A 1) ha2 hb2 hid
    ((List.range sentence.length).flatMap (lBegins sentence.length es)) expected _
    (by
      intro k hk
      obtain ⟨q, hq, hk⟩ := List.mem_flatMap.1 hk
      rw [List.mem_range] at hq
      rcases mem_lBegins.1 hk with ⟨_, h⟩ | ⟨j, e, h1, h2, _⟩
      · omega
      · exact ⟨j, e, h1, h2⟩) hE
  obtain ⟨hz1, hz2⟩ := ha3 sentence.length (Nat.le_refl _) 1 (graph_lattice hes).eos
  set N := es.length + 2 with hN
  have hNr : (es.length : ℝ) + 2 = (N : ℝ) := by rw [hN]; push_cast; ring
  rw [hNr]
  have hPN := errPow_pos N
  have hEN := errPow_le N
  refine ⟨expected', A 1, ?_, ?_, ?_, he2.1, ?_⟩
  · unfold Lattice.populateMarginal
    rw [ha1, hb1]
    simp only [res_bind_ok]
    rw [show (latticeOf sentence es).eosIdx = 1 from rfl, ha2.get (by omega)]
    simp only [res_bind_ok]
    have : ∀ (ps : List Nat) (ex : List ℝ), (∀ q ∈ ps, q ≤ sentence.length) →
        ps.foldlM (fun expected pos => do
          let b ← idx (latticeOf sentence es).beginNodes pos
          b.foldlM (Lattice.addMarginal (latticeOf sentence es).nodes alpha beta (A 1)) expected) ex =
        ps.foldlM (fun s a => (lBegins sentence.length es a).foldlM
          (Lattice.addMarginal (latticeOf sentence es).nodes alpha beta (A 1)) s) ex := by
      intro ps
      induction ps with
      | nil => intro _ _; rfl
      | cons q ps ih =>
        intro ex hps
        rw [List.foldlM_cons, List.foldlM_cons, idx_of_getElem? (latticeOf_begin sentence es q (hps q (by simp)))]
        simp only [res_bind_ok]
        congr 1
        funext t
        exact ih t (fun x hx => hps x (by simp [hx]))
    rw [show (latticeOf sentence es).sentence.length = sentence.length from rfl,
      this _ _ (fun q hq => by rw [List.mem_range] at hq; omega), ← foldlM_flatMap', he1]
    rfl
  · rw [hpart, Real.le_log_iff_exp_le hZ]; exact hz2
  · rw [hpart, Real.log_le_iff_le_exp hZ, Real.exp_add]
    rw [div_le_iff₀ hPN] at hz1
    exact le_trans hz1 (mul_le_mul_of_nonneg_left hEN (Real.exp_pos _).le)
  · intro i old hold
    have hil := (List.getElem?_eq_some_iff.1 hold).1
    refine ⟨E' i - old, ?_, ?_⟩
    · rw [he2.2 i hil]; congr 1; ring
    have hinc : E' i - old = ∑ j ∈ Finset.range es.length,
        if idOf es j = i then Real.exp (A (j + 2) + lScore es (j + 2) + B (j + 2) - A 1) else 0 := by
      rw [he3 i, sum_flatMap_begins hes]
      simp only [hold, Option.getD_some, Nat.add_sub_cancel]
      ring
    rw [hinc, expectedCount_eq hes hsegs, Finset.sum_mul, Finset.sum_mul]
    have hterm : ∀ j ∈ Finset.range es.length,
        total hes 0 (posOf es j) * Real.exp (entryScore es j) * total hes (endOf es j) sentence.length / total hes 0 sentence.length
            * Real.exp (-(2 * N * Real.exp (-50))) ≤ Real.exp (A (j + 2) + lScore es (j + 2) + B (j + 2) - A 1) ∧
        Real.exp (A (j + 2) + lScore es (j + 2) + B (j + 2) - A 1) ≤
          total hes 0 (posOf es j) * Real.exp (entryScore es j) * total hes (endOf es j) sentence.length / total hes 0 sentence.length
            * Real.exp (N * Real.exp (-50)) := by
      intro j hj
      rw [Finset.mem_range] at hj
      have he := List.getElem?_eq_getElem hj
      have hin := hes _ (List.mem_of_getElem? he)
      obtain ⟨a1, a2⟩ := ha3 es[j].pos (by omega) (j + 2) (mem_lBegins.2 (.inr ⟨j, _, rfl, he, rfl⟩))
      obtain ⟨b1, b2⟩ := hb3 (es[j].pos + es[j].len) hin.2 (j + 2) (mem_lEnds.2 (.inr ⟨j, _, rfl, he, rfl⟩))
      rw [posOf_eq he, endOf_eq he, lScore_entry, Real.exp_sub, Real.exp_add, Real.exp_add]
      have hta : 0 ≤ total hes 0 es[j].pos := Finset.sum_nonneg (fun js _ => (weight_pos js).le)
      have htb : 0 ≤ total hes (es[j].pos + es[j].len) sentence.length := Finset.sum_nonneg (fun js _ => (weight_pos js).le)
      generalize total hes 0 es[j].pos = ta at *
      generalize total hes (es[j].pos + es[j].len) sentence.length = tb at *
      generalize total hes 0 sentence.length = Z at *
      have ex : 0 < Real.exp (entryScore es j) := Real.exp_pos _
      have ezp : 0 < Real.exp (A 1) := Real.exp_pos _
      have eap : 0 < Real.exp (A (j + 2)) := Real.exp_pos _
      have ebp : 0 < Real.exp (B (j + 2)) := Real.exp_pos _
      generalize Real.exp (entryScore es j) = x at *
      generalize Real.exp (A (j + 2)) = a at *
      generalize Real.exp (B (j + 2)) = b at *
      generalize Real.exp (A 1) = z at *
      rw [div_le_iff₀ hPN] at a1 b1 hz1
      constructor
      · have hexp : Real.exp (-(2 * N * Real.exp (-50))) * (errPow N * errPow N) ≤ 1 := by
          have h1 : errPow N * errPow N ≤ Real.exp (2 * N * Real.exp (-50)) := by
            rw [show 2 * (N : ℝ) * Real.exp (-50) = N * Real.exp (-50) + N * Real.exp (-50) by ring, Real.exp_add]
            exact mul_le_mul hEN hEN hPN.le (Real.exp_pos _).le
          calc _ ≤ Real.exp (-(2 * N * Real.exp (-50))) * Real.exp (2 * N * Real.exp (-50)) :=
                mul_le_mul_of_nonneg_left h1 (Real.exp_pos _).le
            _ = 1 := by rw [← Real.exp_add]; simp
        have hE0 := Real.exp_pos (-(2 * N * Real.exp (-50)))
        rw [div_mul_eq_mul_div, div_le_div_iff₀ hZ ezp]
        have h1 : ta * tb ≤ (a * errPow N) * (b * errPow N) := mul_le_mul a1 b1 htb (by positivity)
        calc ta * x * tb * Real.exp (-(2 * N * Real.exp (-50))) * z
            = (ta * tb) * (x * Real.exp (-(2 * N * Real.exp (-50))) * z) := by ring
          _ ≤ ((a * errPow N) * (b * errPow N)) * (x * Real.exp (-(2 * N * Real.exp (-50))) * z) :=
              mul_le_mul_of_nonneg_right h1 (by positivity)
          _ = (a * b * x * z) * (Real.exp (-(2 * N * Real.exp (-50))) * (errPow N * errPow N)) := by ring
          _ ≤ (a * b * x * z) * 1 := mul_le_mul_of_nonneg_left hexp (by positivity)
          _ ≤ a * x * b * Z := by
              rw [mul_one]
              calc a * b * x * z ≤ a * b * x * Z := mul_le_mul_of_nonneg_left hz2 (by positivity)
                _ = _ := by ring
      · rw [div_mul_eq_mul_div, div_le_div_iff₀ ezp hZ]
        have h1 : a * b ≤ ta * tb := mul_le_mul a2 b2 ebp.le hta
        calc a * x * b * Z = (a * b) * (x * Z) := by ring
          _ ≤ (ta * tb) * (x * (z * Real.exp (N * Real.exp (-50)))) := by
              refine mul_le_mul h1 (mul_le_mul_of_nonneg_left ?_ ex.le) (by positivity) (by positivity)
              exact le_trans hz1 (mul_le_mul_of_nonneg_left hEN ezp.le)
          _ = _ := by ring
    constructor
    · apply Finset.sum_le_sum
      intro j hj
      by_cases h : idOf es j = i
      · simp only [h, if_true]; exact (hterm j hj).1
      · simp [h]
    · apply Finset.sum_le_sum
      intro j hj
      by_cases h : idOf es j = i
      · simp only [h, if_true]; exact (hterm j hj).2
      · simp [h]

/-- **C36** The token lengths weighted by the expected counts add up to the length of the sentence. -/
theorem C36_lengths (sentence : List UInt8) (es : List (Entry ℝ)) (hes : Inside sentence.length es)
    (hgaps : NoGaps sentence.length es) (segs : Finset (List Nat)) (hsegs : AllSegmentations sentence.length es segs)
    (size : Nat) (hid : ∀ e ∈ es, e.id < size) (len : Nat → Nat) (hlen : ∀ e ∈ es, e.len = len e.id) :
    ∑ i ∈ Finset.range size, len i * expectedCount es segs i = sentence.length := by
  obtain ⟨hsr, hpart⟩ := partition_eq hes hsegs
  have hZ := total_pos hes hgaps
  unfold expectedCount
  simp only [Finset.mul_sum]
  rw [Finset.sum_comm]
  have step : ∀ js ∈ segs, (∑ i ∈ Finset.range size, (len i : ℝ) * (Real.exp (runScore es js) / partition es segs * occurrences es i js)) =
      weight es js / partition es segs * sentence.length := by
    intro js hjs
    have hrun := (hsegs js).1 hjs
    have hl := hrun.lengths hlen
    have : (∑ i ∈ Finset.range size, (len i : ℝ) * occurrences es i js) = sentence.length := by
      rw [← hl, Nat.zero_add]
      have key : ∀ (js : List Nat), (∀ j ∈ js, ∃ e, es[j]? = some e) →
          (∑ i ∈ Finset.range size, (len i : ℝ) * occurrences es i js) = ((js.map (fun j => len (idOf es j))).sum : Nat) := by
        intro js
        induction js with
        | nil => intro _; simp [occurrences]
        | cons j js ih =>
          intro hm
          obtain ⟨e, he⟩ := hm j (by simp)
          have hidj : idOf es j = e.id := by simp [idOf, he]
          rw [List.map_cons, List.sum_cons, Nat.cast_add, ← ih (fun x hx => hm x (by simp [hx])), hidj]
          have : ∀ i, (occurrences es i (j :: js) : ℝ) = (if e.id = i then 1 else 0) + occurrences es i js := by
            intro i
            unfold occurrences
            rw [List.countP_cons, he]
            by_cases h : e.id = i <;> simp [h, add_comm]
          simp only [this, mul_add, Finset.sum_add_distrib]
          congr 1
          rw [Finset.sum_eq_single e.id]
          · simp
          · intro b _ hb; rw [if_neg (Ne.symm hb), mul_zero]
          · intro h; exact absurd (Finset.mem_range.2 (hid e (List.mem_of_getElem? he))) h
      exact key js (fun j hj => hrun.mem_lt j hj)
    rw [← this, Finset.mul_sum]
    apply Finset.sum_congr rfl
    intro i _
    unfold weight
    ring
  rw [Finset.sum_congr rfl step, ← Finset.sum_mul, ← Finset.sum_div]
  have : ∑ js ∈ segs, weight es js = partition es segs := rfl
  rw [this, div_self (by rw [hpart]; exact hZ.ne'), one_mul]

/-- Without the condition that every token lies on a segmentation the claim fails: with the tokens `"ab"` and `"b"` of
score 0, the only segmentation of `"ab"` has probability 1, so the constant should be (about) 0, but the unreachable
token `"b"` is counted and the constant is `log 2`. -/
theorem C36_gap_false : ∃ (sentence : List UInt8) (es : List (Entry ℝ)) (segs : Finset (List Nat)),
    Inside sentence.length es ∧ NoDeadEnds sentence.length es ∧ AllSegmentations sentence.length es segs ∧
    Real.log (partition es segs) = 0 ∧
    ∃ expected', (latticeOf sentence es).populateMarginal [0, 0] = .ok (expected', Real.log 2) := by
  have hi : Inside 2 [(⟨0, 0, 2, 0⟩ : Entry ℝ), ⟨1, 1, 1, 0⟩] := by
    intro e he
    simp only [List.mem_cons, List.not_mem_nil, or_false] at he
    rcases he with rfl | rfl <;> simp
  have hruns : ∀ js, Run [(⟨0, 0, 2, 0⟩ : Entry ℝ), ⟨1, 1, 1, 0⟩] 0 js 2 ↔ js = [0] := by
    intro js
    constructor
    · intro h
      cases js with
      | nil => simp [Run] at h
      | cons j js =>
        obtain ⟨e, h1, h2, h3⟩ := h
        match j, h1 with
        | 0, h1 =>
          simp only [List.getElem?_cons_zero, Option.some.injEq] at h1
          subst h1
          cases js with
          | nil => rfl
          | cons k js =>
            obtain ⟨e', h4, h5, h6⟩ := h3
            have := h6.le
            have := (hi e' (List.mem_of_getElem? h4)).1
            simp at *
            omega
        | 1, h1 =>
          simp only [List.getElem?_cons_succ, List.getElem?_cons_zero, Option.some.injEq] at h1
          subst h1; simp at h2
        | j + 2, h1 => simp at h1
    · rintro rfl
      exact ⟨_, rfl, rfl, rfl⟩
  refine ⟨[97, 98], [⟨0, 0, 2, 0⟩, ⟨1, 1, 1, 0⟩], {[0]}, hi, ?_, ?_, ?_, ?_⟩
  · intro p hp
    simp only [List.mem_cons, List.not_mem_nil, or_false, exists_eq_or_imp, exists_eq_left, List.length_cons, List.length_nil] at hp ⊢
    omega
  · intro js
    rw [Finset.mem_singleton]
    exact (hruns js).symm
  · simp [partition, runScore, entryScore]
  · have h0 : logSumExp (0 : ℝ) 0 false = Real.log 2 := by
      rw [logSumExp_eq, if_neg (by simp)]; norm_num
    have ha : (latticeOf [97, 98] [(⟨0, 0, 2, 0⟩ : Entry ℝ), ⟨1, 1, 1, 0⟩]).forwardTable = .ok [0, Real.log 2, 0, 0] := by
      simp [Lattice.forwardTable, latticeOf, nodesWhere, List.range_succ, Lattice.accPos, Lattice.accSource, idx, setIdx,
        LNode.new, logSumExp_init, ScoreOps.zero, ScoreOps.add, h0]
    have hb : (latticeOf [97, 98] [(⟨0, 0, 2, 0⟩ : Entry ℝ), ⟨1, 1, 1, 0⟩]).backwardTable = .ok [0, 0, 0, 0] := by
      simp [Lattice.backwardTable, latticeOf, nodesWhere, List.range_succ, Lattice.accPos, Lattice.accSource, idx, setIdx,
        LNode.new, logSumExp_init, ScoreOps.zero, ScoreOps.add]
    refine ⟨[Real.exp (-Real.log 2), Real.exp (-Real.log 2)], ?_⟩
    unfold Lattice.populateMarginal
    rw [ha, hb]
    simp [latticeOf, nodesWhere, List.range_succ, Lattice.addMarginal, idx, setIdx, LNode.new, ScoreOps.add, RealOps.sub,
      RealOps.exp, ScoreOps.zero]

/-- Non-vacuity: the sentence `"ab"` with the tokens `"a"`, `"ab"` and `"b"` has no gap and no dead end, and two
segmentations. -/
def margEntries : List (Entry ℝ) := [⟨0, 0, 1, -1⟩, ⟨0, 1, 2, -2⟩, ⟨1, 2, 1, -3⟩]
example : Inside 2 margEntries ∧ NoGaps 2 margEntries ∧ NoDeadEnds 2 margEntries := by
  refine ⟨?_, ?_, ?_⟩
  · intro e he
    simp only [margEntries, List.mem_cons, List.not_mem_nil, or_false] at he
    rcases he with rfl | rfl | rfl <;> simp
  · intro p hp
    simp only [margEntries, List.mem_cons, List.not_mem_nil, or_false, exists_eq_or_imp, exists_eq_left] at hp ⊢
    omega
  · intro p hp
    simp only [margEntries, List.mem_cons, List.not_mem_nil, or_false, exists_eq_or_imp, exists_eq_left] at hp ⊢
    omega
example : Run margEntries 0 [0, 2] 2 ∧ Run margEntries 0 [1] 2 :=
  ⟨⟨_, rfl, rfl, _, rfl, rfl, rfl⟩, ⟨_, rfl, rfl, rfl⟩⟩
example : occurrences margEntries 2 [0, 2] = 1 ∧ occurrences margEntries 2 [1] = 0 := by
  simp [occurrences, margEntries]

/-- Tokens found in a sentence, the one-byte tokens for every byte among them, leave no gap. -/
theorem noGaps_of_bytes {F : Type} [ScoreOps F] {vocab : List (ScoredToken F)} {sentence : List UInt8}
    (hb : BytesCovered vocab sentence) {es : List (Entry F)} (h2 : ∀ e ∈ es, TokenAt vocab sentence e)
    (h4 : ∀ e, TokenAt vocab sentence e → e.len = 1 → e ∈ es) :
    Inside sentence.length es ∧ NoGaps sentence.length es ∧ NoDeadEnds sentence.length es ∧
      ∀ e ∈ es, e.id < vocab.length := by
  have hone : ∀ q, q < sentence.length → ∃ e ∈ es, e.pos = q ∧ e.len = 1 := by
    intro q hq
    have h1 : (sentence.drop q).take 1 = [sentence[q]] := by
      rw [List.drop_eq_getElem_cons hq, List.take_succ_cons, List.take_zero]
    obtain ⟨id, hid⟩ := ((Model.wf_from vocab).isSome_iff [sentence[q]]).2 (hb _ (List.getElem_mem hq))
    have hl := ((Model.wf_from vocab).ids _ _).1 hid
    obtain ⟨t, ht, _⟩ := hl.1
    refine ⟨⟨q, id, 1, t.score⟩, h4 _ ⟨by simp, by simp; omega, ?_, t, ht, rfl⟩ rfl, rfl, rfl⟩
    simp only [h1]
    exact hl
  refine ⟨fun e he => ⟨(h2 e he).1, (h2 e he).2.1⟩, ?_, ?_, ?_⟩
  · intro p hp
    rcases Nat.eq_zero_or_pos p with h | hpos
    · exact .inl h
    · have hle : p ≤ sentence.length := by
        rcases hp with rfl | ⟨e, he, rfl⟩
        · exact Nat.le_refl _
        · have := (h2 e he).2.1; omega
      obtain ⟨e, he, h5, h6⟩ := hone (p - 1) (by omega)
      exact .inr ⟨e, he, by omega⟩
  · intro p hp
    by_cases h : p = sentence.length
    · exact .inl h
    · have hle : p ≤ sentence.length := by
        rcases hp with rfl | ⟨e, he, rfl⟩
        · exact Nat.zero_le _
        · exact (h2 e he).2.1
      obtain ⟨e, he, h5, _⟩ := hone p (by omega)
      exact .inr ⟨e, he, h5⟩
  · intro e he
    obtain ⟨t, ht, _⟩ := (h2 e he).2.2.2
    exact (List.getElem?_eq_some_iff.1 ht).1

/-- The hypotheses of `C36_marginal` are met by every lattice populated, with any dropout, from a vocabulary that has a
one-byte token for every byte of the sentence. -/
theorem C36_populated {F : Type} [ScoreOps F] (vocab : List (ScoredToken F)) (sentence : List UInt8)
    (hb : BytesCovered vocab sentence) (dropout : F) (rnd : Nat → F) :
    ∃ es k, (Model.from_ vocab).populateNodes (latticeOf sentence []) dropout rnd = .ok (latticeOf sentence es, k) ∧
      Inside sentence.length es ∧ NoGaps sentence.length es ∧ NoDeadEnds sentence.length es ∧
      ∀ e ∈ es, e.id < vocab.length := by
  obtain ⟨es, k, h1, h2, _, h4, _⟩ := C33_populate vocab sentence dropout rnd
  exact ⟨es, k, h1, noGaps_of_bytes hb h2 h4⟩

end Tokengeex

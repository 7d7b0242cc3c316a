import Verif.Proofs.LseF64
import Verif.Props.Marginal
/-
The tables of `populate_marginal` with doubles.
-/
namespace Tokengeex
open Spec

/-! ## The lattice of the real values -/

theorem nodesWhere_map {F G : Type} (f : Entry F → Entry G) (c : Entry G → Bool) (es : List (Entry F)) :
    nodesWhere c (es.map f) = nodesWhere (fun e => c (f e)) es := by
  unfold nodesWhere
  rw [List.zipIdx_map, List.filterMap_map]
  rfl

section
variable {n : Nat} {es : List (Entry F64)}

theorem realEntries_length : (realEntries es).length = es.length := by simp [realEntries]

theorem lBegins_real (p : Nat) : lBegins n (realEntries es) p = lBegins n es p := by
  unfold lBegins realEntries
  rw [nodesWhere_map]

theorem lEnds_real (p : Nat) : lEnds (realEntries es) p = lEnds es p := by
  unfold lEnds realEntries
  rw [nodesWhere_map]

theorem mem_realEntries {e : Entry ℝ} : e ∈ realEntries es ↔ ∃ x ∈ es, (⟨x.pos, x.id, x.len, real x.score⟩ : Entry ℝ) = e := by
  simp [realEntries]

theorem inside_real (h : Inside n es) : Inside n (realEntries es) := by
  intro e he
  obtain ⟨x, hx, rfl⟩ := mem_realEntries.1 he
  exact h x hx

theorem noGaps_real (h : NoGaps n es) : NoGaps n (realEntries es) := by
  intro p hp
  have := h p (by
    rcases hp with hp | ⟨e, he, hp⟩
    · exact .inl hp
    · obtain ⟨x, hx, rfl⟩ := mem_realEntries.1 he
      exact .inr ⟨x, hx, hp⟩)
  rcases this with h | ⟨x, hx, h⟩
  · exact .inl h
  · exact .inr ⟨_, mem_realEntries.2 ⟨x, hx, rfl⟩, h⟩

theorem noDeadEnds_real (h : NoDeadEnds n es) : NoDeadEnds n (realEntries es) := by
  intro p hp
  have := h p (by
    rcases hp with hp | ⟨e, he, hp⟩
    · exact .inl hp
    · obtain ⟨x, hx, rfl⟩ := mem_realEntries.1 he
      exact .inr ⟨x, hx, hp⟩)
  rcases this with h | ⟨x, hx, h⟩
  · exact .inl h
  · exact .inr ⟨_, mem_realEntries.2 ⟨x, hx, rfl⟩, h⟩

theorem zero_double : Spec.Finite (F64.num false 0) ∧ real (F64.num false 0) = 0 :=
  ⟨⟨0, 0, by norm_num, by norm_num, rfl⟩, by simp [F64.real_sgn]⟩

theorem lScore_real (hf : ∀ e ∈ es, Spec.Finite e.score) (i : Nat) :
    Spec.Finite (lScore es i) ∧ real (lScore es i) = lScore (realEntries es) i := by
  match i with
  | 0 => exact zero_double
  | 1 => exact zero_double
  | j + 2 =>
    have e1 : (realEntries es)[j]? = es[j]?.map fun e => ⟨e.pos, e.id, e.len, real e.score⟩ := by simp [realEntries]
    cases h : es[j]? with
    | none =>
      have h1 : lScore es (j + 2) = F64.num false 0 := by simp [lScore, h]; rfl
      have h2 : lScore (realEntries es) (j + 2) = 0 := by simp [lScore, e1, h]; rfl
      rw [h1, h2]
      exact zero_double
    | some e =>
      have h1 : lScore es (j + 2) = e.score := by simp [lScore, h]
      have h2 : lScore (realEntries es) (j + 2) = real e.score := by simp [lScore, e1, h]
      rw [h1, h2]
      exact ⟨hf e (List.mem_of_getElem? h), rfl⟩
end

/-! ## Bounds of the sums over segmentations -/

section
variable {n : Nat} {es : List (Entry ℝ)} {S : ℝ}

theorem entryScore_bound (hS : ∀ e ∈ es, |e.score| ≤ S) {j : Nat} {e : Entry ℝ} (h : es[j]? = some e) : |entryScore es j| ≤ S := by
  have : entryScore es j = e.score := by simp [entryScore, h]
  rw [this]
  exact hS e (List.mem_of_getElem? h)

theorem total_nonneg (hi : Inside n es) (a b : Nat) : 0 ≤ total hi a b := Finset.sum_nonneg (fun js _ => (weight_pos js).le)

/-- The logarithm of the sum over the segmentations of a part is at most its length times `S + ln N`. -/
theorem total_upper (hi : Inside n es) (hS : ∀ e ∈ es, |e.score| ≤ S) (hS0 : 0 ≤ S) (a : Nat) :
    ∀ b, total hi a b ≤ (Real.exp S * ((es.length + 2 : Nat) : ℝ)) ^ b := by
  have hN : (1 : ℝ) ≤ ((es.length + 2 : Nat) : ℝ) := by exact_mod_cast (by omega : 1 ≤ es.length + 2)
  have hC : 1 ≤ Real.exp S * ((es.length + 2 : Nat) : ℝ) := one_le_mul_of_one_le_of_one_le (Real.one_le_exp hS0) hN
  intro b
  induction b using Nat.strongRecOn with
  | ind b ih =>
    by_cases hab : a = b
    · subst hab
      rw [total_self]
      exact one_le_pow₀ hC
    · rw [total_last hi a b hab]
      have hcard : ((entryNums es (fun e => e.pos + e.len == b)).card : ℝ) ≤ ((es.length + 2 : Nat) : ℝ) := by
        have h1 : (entryNums es (fun e => e.pos + e.len == b)).card ≤ (Finset.range es.length).card := by
          unfold entryNums
          exact Finset.card_filter_le _ _
        rw [Finset.card_range] at h1
        exact_mod_cast (by omega : (entryNums es (fun e => e.pos + e.len == b)).card ≤ es.length + 2)
      have hterm : ∀ j ∈ entryNums es (fun e => e.pos + e.len == b), Real.exp (entryScore es j) * total hi a (posOf es j) ≤
          Real.exp S * (Real.exp S * ((es.length + 2 : Nat) : ℝ)) ^ (b - 1) := by
        intro j hj
        obtain ⟨e, he, hb⟩ := mem_entryNums.1 hj
        simp only [beq_iff_eq] at hb
        have hl := (hi e (List.mem_of_getElem? he)).1
        rw [posOf_eq he]
        refine mul_le_mul (Real.exp_le_exp.2 (abs_le.1 (entryScore_bound hS he)).2) ?_ (total_nonneg hi _ _) (Real.exp_pos _).le
        exact le_trans (ih e.pos (by omega)) (pow_le_pow_right₀ hC (by omega))
      by_cases hb0 : b = 0
      · have : entryNums es (fun e => e.pos + e.len == b) = ∅ := by
          ext j
          simp only [mem_entryNums, beq_iff_eq, Finset.notMem_empty, iff_false, not_exists, not_and]
          intro e h1 h2
          have := (hi e (List.mem_of_getElem? h1)).1
          omega
        rw [this, Finset.sum_empty]
        exact pow_nonneg (by linarith) _
      · refine le_trans (Finset.sum_le_card_nsmul _ _ _ hterm) ?_
        rw [nsmul_eq_mul]
        have e1 : (Real.exp S * ((es.length + 2 : Nat) : ℝ)) ^ b = ((es.length + 2 : Nat) : ℝ) * (Real.exp S * (Real.exp S * ((es.length + 2 : Nat) : ℝ)) ^ (b - 1)) := by
          conv_lhs => rw [show b = (b - 1) + 1 by omega, pow_succ]
          ring
        rw [e1]
        exact mul_le_mul_of_nonneg_right hcard (mul_nonneg (Real.exp_pos _).le (pow_nonneg (by linarith) _))

theorem log_total_upper (hi : Inside n es) (hS : ∀ e ∈ es, |e.score| ≤ S) (hS0 : 0 ≤ S) (a : Nat) {b : Nat} (hb : b ≤ n)
    (hpos : 0 < total hi a b) : Real.log (total hi a b) ≤ n * (S + Real.log ((es.length + 2 : Nat) : ℝ)) := by
  have hN : (1 : ℝ) ≤ ((es.length + 2 : Nat) : ℝ) := by exact_mod_cast (by omega : 1 ≤ es.length + 2)
  have h1 := Real.log_le_log hpos (total_upper hi hS hS0 a b)
  rw [Real.log_pow, Real.log_mul (Real.exp_pos _).ne' (by positivity), Real.log_exp] at h1
  refine le_trans h1 (mul_le_mul_of_nonneg_right (by exact_mod_cast hb) ?_)
  exact add_nonneg hS0 (Real.log_nonneg hN)

/-- From below, where something begins. -/
theorem total_lower (hi : Inside n es) (hg : NoGaps n es) (hS : ∀ e ∈ es, |e.score| ≤ S) (hS0 : 0 ≤ S) :
    ∀ p, p ≤ n → (p = n ∨ ∃ e ∈ es, e.pos = p) → Real.exp (-(S * p)) ≤ total hi 0 p := by
  intro p
  induction p using Nat.strongRecOn with
  | ind p ih =>
    intro hp hb
    rcases hg p hb with rfl | ⟨e, he, hpe⟩
    · rw [total_self]; simp
    · obtain ⟨j, hj⟩ := List.getElem?_of_mem he
      have hl := (hi e he).1
      have h1 := ih e.pos (by omega) (by omega) (.inr ⟨e, he, rfl⟩)
      have h0 : 0 ≠ p := by omega
      rw [total_last hi 0 p h0]
      have hmem : j ∈ entryNums es (fun e => e.pos + e.len == p) := mem_entryNums.2 ⟨e, hj, by simpa using hpe⟩
      refine le_trans ?_ (Finset.single_le_sum (f := fun j => Real.exp (entryScore es j) * total hi 0 (posOf es j))
        (fun j _ => mul_nonneg (Real.exp_pos _).le (total_nonneg hi _ _)) hmem)
      rw [posOf_eq hj]
      have h2 := (abs_le.1 (entryScore_bound hS hj)).1
      have h3 : Real.exp (-(S * p)) ≤ Real.exp (entryScore es j) * Real.exp (-(S * e.pos)) := by
        rw [← Real.exp_add]
        apply Real.exp_le_exp.2
        have h4 : (e.pos : ℝ) + 1 ≤ p := by exact_mod_cast (by omega : e.pos + 1 ≤ p)
        nlinarith
      exact le_trans h3 (mul_le_mul_of_nonneg_left h1 (Real.exp_pos _).le)

/-- From below, where something ends. -/
theorem total_lower_back (hi : Inside n es) (hd : NoDeadEnds n es) (hS : ∀ e ∈ es, |e.score| ≤ S) (hS0 : 0 ≤ S) :
    ∀ k p, p + k = n → (p = 0 ∨ ∃ e ∈ es, e.pos + e.len = p) → Real.exp (-(S * k)) ≤ total hi p n := by
  intro k
  induction k using Nat.strongRecOn with
  | ind k ih =>
    intro p hp hb
    rcases hd p hb with rfl | ⟨e, he, hpe⟩
    · rw [total_self, Real.exp_le_one_iff]
      have : (0 : ℝ) ≤ S * k := by positivity
      linarith
    · obtain ⟨j, hj⟩ := List.getElem?_of_mem he
      obtain ⟨hl, hle⟩ := hi e he
      have h1 := ih (n - (e.pos + e.len)) (by omega) (e.pos + e.len) (by omega) (.inr ⟨e, he, rfl⟩)
      have h0 : p ≠ n := by omega
      rw [total_first hi p n h0]
      have hmem : j ∈ entryNums es (fun e => e.pos == p) := mem_entryNums.2 ⟨e, hj, by simpa using hpe⟩
      refine le_trans ?_ (Finset.single_le_sum (f := fun j => Real.exp (entryScore es j) * total hi (endOf es j) n)
        (fun j _ => mul_nonneg (Real.exp_pos _).le (total_nonneg hi _ _)) hmem)
      rw [endOf_eq hj]
      have h2 := (abs_le.1 (entryScore_bound hS hj)).1
      have h3 : Real.exp (-(S * k)) ≤ Real.exp (entryScore es j) * Real.exp (-(S * (n - (e.pos + e.len) : Nat))) := by
        rw [← Real.exp_add]
        apply Real.exp_le_exp.2
        have h4 : ((n - (e.pos + e.len) : Nat) : ℝ) + 1 ≤ k := by exact_mod_cast (by omega : n - (e.pos + e.len) + 1 ≤ k)
        nlinarith
      exact le_trans h3 (mul_le_mul_of_nonneg_left h1 (Real.exp_pos _).le)
end

/-! ## One level of a table -/

namespace F64
variable [Elementary]

theorem near_accVal {ε η M : ℝ} (hln : LnWithin ε) (hexp : ExpWithin η) (hε : ε ≤ 1 / 8) (hη : η ≤ 1 / 8) (hM : M ≤ 2 ^ 50)
    {X : Nat → ℝ} {w T : Nat → F64} {sources : List Nat} (hne : sources ≠ []) (hw : ∀ s ∈ sources, Spec.Finite (w s))
    (hX : ∀ s ∈ sources, 0 < X s) (hlow : ∀ s ∈ sources, -M ≤ real (w s) + Real.log (X s)) {Y : ℝ}
    (hY : Y = (sources.map fun s => Real.exp (real (w s)) * X s).sum) (hup : Real.log Y ≤ M) (k : Nat)
    (hk : ((k + sources.length : Nat) : ℝ) * (ε + 2 * η + u * (M + 320)) ≤ 1)
    (hT : ∀ s ∈ sources, Near (T s) (Real.log (X s)) (k * (ε + 2 * η + u * (M + 320)))) (old : F64) :
    Near (accVal w T old sources) (Real.log Y) ((k + sources.length : Nat) * (ε + 2 * η + u * (M + 320))) := by
  have hterm : ∀ s ∈ sources, Real.exp (real (w s) + Real.log (X s)) = Real.exp (real (w s)) * X s := by
    intro s hs
    rw [Real.exp_add, Real.exp_log (hX s hs)]
  have hY' : Y = (sources.map fun s => Real.exp (real (w s) + Real.log (X s))).sum := by
    rw [hY]
    congr 1
    apply List.map_congr_left
    intro s hs
    rw [hterm s hs]
  have hle : ∀ s ∈ sources, real (w s) + Real.log (X s) ≤ M := by
    intro s hs
    refine le_trans ?_ hup
    have h1 : Real.exp (real (w s) + Real.log (X s)) ≤ Y := by
      rw [hY']
      exact List.single_le_sum (by
        intro x hx
        obtain ⟨b, _, rfl⟩ := List.mem_map.1 hx
        exact (Real.exp_pos _).le) _ (List.mem_map.2 ⟨s, hs, rfl⟩)
    rw [Real.le_log_iff_exp_le (lt_of_lt_of_le (Real.exp_pos _) h1)]
    exact h1
  have hu0 := u_pos
  have h1 := lnWithin_nonneg hln
  have h2 := expWithin_nonneg hexp
  have hM0 : 0 ≤ M := by
    obtain ⟨s, hs⟩ := List.exists_mem_of_ne_nil _ hne
    linarith [hle s hs, hlow s hs]
  have huM := mul_nonneg hu0.le hM0
  set d := ε + 2 * η + u * (M + 320) with hd
  have hdu : u * (M + 1) ≤ d := by
    rw [hd]
    nlinarith
  have hd0 : 0 ≤ d := le_trans (mul_nonneg hu0.le (by linarith)) hdu
  have hkd : (k : ℝ) * d ≤ 1 := by
    refine le_trans (mul_le_mul_of_nonneg_right ?_ hd0) hk
    exact_mod_cast Nat.le_add_right _ _
  have hsum : ∀ s ∈ sources, Near (ScoreOps.add (w s) (T s)) (real (w s) + Real.log (X s)) (k * d + u * (M + 1)) ∧
      |real (w s) + Real.log (X s)| ≤ M := by
    intro s hs
    have hb : |real (w s) + Real.log (X s)| ≤ M := abs_le.2 ⟨hlow s hs, hle s hs⟩
    refine ⟨?_, hb⟩
    have := Near.add (Pruner.near_self (hw s hs)) (hT s hs) (B := M + 1) (by linarith) (by
      have : (2 : ℝ) ^ 50 + 1 ≤ 2 ^ 100 := by norm_num
      linarith)
    rw [zero_add] at this
    exact this
  cases sources with
  | nil => exact absurd rfl hne
  | cons a l =>
    have hlen : ((k + (a :: l).length : Nat) : ℝ) = k + 1 + l.length := by
      rw [List.length_cons]
      push_cast
      ring
    rw [hlen] at hk ⊢
    have hl := near_lseFold hln hexp hε hη hM (fun s => ScoreOps.add (w s) (T s)) (fun s => real (w s) + Real.log (X s)) l
      (ScoreOps.add (w a) (T a)) (real (w a) + Real.log (X a)) (k * d + u * (M + 1)) (hsum a (by simp)).1
      (fun s hs => hsum s (by simp [hs])) (hlow a (by simp)) (by
        rw [hY', List.map_cons, List.sum_cons] at hup
        exact hup) (by rw [← hd]; nlinarith)
    rw [hY', List.map_cons, List.sum_cons]
    rw [← hd] at hl
    exact Near.mono hl (by nlinarith)

end F64

/-! ## The tables -/

section
variable [Elementary] {es : List (Entry F64)}

omit [Elementary] in
theorem holdsF_zero (size : Nat) : HoldsF (List.replicate size (F64.num false 0)) size (fun _ => F64.num false 0) :=
  ⟨by simp, fun i hi => by simp [hi]⟩

omit [Elementary] in
theorem scores_real {S : ℝ} (hf : ∀ e ∈ es, Spec.Finite e.score ∧ |real e.score| ≤ S) : ∀ e ∈ realEntries es, |e.score| ≤ S := by
  intro e he
  obtain ⟨x, hx, rfl⟩ := mem_realEntries.1 he
  exact (hf x hx).2

omit [Elementary] in
theorem lScore_bound {S : ℝ} (hS : ∀ e ∈ realEntries es, |e.score| ≤ S) (hS0 : 0 ≤ S) (i : Nat) : |lScore (realEntries es) i| ≤ S := by
  match i with
  | 0 => simpa [lScore, ScoreOps.zero] using hS0
  | 1 => simpa [lScore, ScoreOps.zero] using hS0
  | j + 2 =>
    cases h : (realEntries es)[j]? with
    | none => simpa [lScore, h, ScoreOps.zero] using hS0
    | some e => simpa [lScore, h] using hS e (List.mem_of_getElem? h)

theorem forwardTable_doubles {ε η S : ℝ} (hln : LnWithin ε) (hexp : ExpWithin η) (hε : ε ≤ 1 / 8) (hη : η ≤ 1 / 8)
    {sentence : List UInt8} (hi : Inside sentence.length es) (hg : NoGaps sentence.length es) (hi' : Inside sentence.length (realEntries es))
    (hf : ∀ e ∈ es, Spec.Finite e.score ∧ |real e.score| ≤ S) (hS0 : 0 ≤ S) {M : ℝ}
    (hM : M = sentence.length * (S + Real.log ((es.length + 2 : Nat) : ℝ))) (hM' : M ≤ 2 ^ 50)
    (hsmall : ((es.length + 2 : Nat) : ℝ) * (ε + 2 * η + F64.u * (M + 320)) ≤ 1) :
    ∃ alpha T, (latticeOf sentence es).forwardTable = .ok alpha ∧ HoldsF alpha (es.length + 2) T ∧
      ∀ p, p ≤ sentence.length → ∀ r ∈ lBegins sentence.length es p,
        F64.Near (T r) (Real.log (total hi' 0 p)) ((es.length + 2 : Nat) * (ε + 2 * η + F64.u * (M + 320))) := by
  have g := graph_lattice hi
  have hconn := (connected_iff hi).2 hg
  have hg' := noGaps_real hg
  have hS := scores_real hf
  have hl := fun i => lScore_real (fun e he => (hf e he).1) (es := es) i
  have hN : (1 : ℝ) ≤ ((es.length + 2 : Nat) : ℝ) := by exact_mod_cast (by omega : 1 ≤ es.length + 2)
  have hlogN := Real.log_nonneg hN
  set δ := ε + 2 * η + F64.u * (M + 320) with hδ
  have hM0 : 0 ≤ M := by rw [hM]; positivity
  have hδ0 : 0 ≤ δ := by
    have h1 := F64.lnWithin_nonneg hln
    have h2 := F64.expWithin_nonneg hexp
    have h3 := mul_nonneg F64.u_pos.le (show 0 ≤ M + 320 by linarith)
    linarith
  have hSM : ∀ q : Nat, q ≤ sentence.length → S * q ≤ M := by
    intro q hq
    have hq' : (q : ℝ) ≤ sentence.length := by exact_mod_cast hq
    rw [hM]
    have hq0 : (0 : ℝ) ≤ q := Nat.cast_nonneg _
    nlinarith
  -- the sum for a node, and where it is positive
  have hlower : ∀ p, p ≤ sentence.length → ∀ r ∈ lBegins sentence.length es p, Real.exp (-(S * p)) ≤ total hi' 0 p := by
    intro p hp r hr
    refine total_lower hi' hg' hS hS0 p hp ?_
    rcases mem_lBegins.1 hr with ⟨_, h⟩ | ⟨j, e, _, h1, h2⟩
    · exact .inl h
    · exact .inr ⟨_, mem_realEntries.2 ⟨e, List.mem_of_getElem? h1, rfl⟩, h2⟩
  obtain ⟨alpha, T, h1, h2, h4⟩ := levels_any (size := es.length + 2) (nodes := (latticeOf sentence es).nodes) (w := lScore es)
    (fun i hil => by
      have : i < (latticeOf sentence es).nodes.length := by rw [latticeOf_nodes_length]; exact hil
      exact ⟨_, List.getElem?_eq_getElem this, (latticeOf_score sentence es i _ (List.getElem?_eq_getElem this)).1⟩)
    (base := 0)
    (fun k t v => k ≤ es.length + 2 → F64.Near v (Real.log (total hi' 0 (nodePos sentence.length (realEntries es) t))) (k * δ))
    (fun {k k' t v} hkk h hk' => (h (by omega)).mono (mul_le_mul_of_nonneg_right (by exact_mod_cast hkk) hδ0))
    ((List.range (sentence.length + 1)).map (fun p => (lBegins sentence.length es p, lEnds es p))) [] 0
    (List.replicate (es.length + 2) (F64.num false 0)) (fun _ => F64.num false 0)
    (by
      intro lv hlv
      obtain ⟨p, hp, rfl⟩ := List.mem_map.1 hlv
      rw [List.mem_range] at hp
      refine ⟨by rw [← lEnds_real]; exact lEnds_nodup p, fun s hs => g.end_lt hs, fun t ht => g.begin_lt ht, ?_⟩
      intro k T hT t ht old hk
      simp only at hT ht hk ⊢
      have hne := hconn p (by omega) (List.ne_nil_of_mem ht)
      have hpos := hlower p (by omega) t ht
      have hnp : nodePos sentence.length (realEntries es) t = p := by
        rw [← lBegins_real] at ht
        exact nodePos_begin ht
      rw [hnp]
      have hsrc : ∀ s ∈ lEnds es p, ∃ q : Nat, nodePos sentence.length (realEntries es) s = q ∧ q ≤ p ∧
          Real.exp (-(S * q)) ≤ total hi' 0 q ∧ -(S * p) ≤ lScore (realEntries es) s + -(S * q) := by
        intro s hs
        rcases mem_lEnds.1 hs with ⟨rfl, h0⟩ | ⟨j, e, rfl, h1, h2⟩
        · refine ⟨0, rfl, by omega, ?_, ?_⟩
          · rw [total_self]; simp
          · rw [h0]; simp [lScore, ScoreOps.zero]
        · have hin := hi e (List.mem_of_getElem? h1)
          have hmem : j + 2 ∈ lBegins sentence.length es e.pos := mem_lBegins.2 (.inr ⟨j, e, rfl, h1, rfl⟩)
          refine ⟨e.pos, ?_, by omega, hlower e.pos (by omega) _ hmem, ?_⟩
          · rw [← lBegins_real] at hmem
            exact nodePos_begin hmem
          · have h5 := (abs_le.1 (lScore_bound hS hS0 (j + 2))).1
            have h6 : (e.pos : ℝ) + 1 ≤ p := by exact_mod_cast (by omega : e.pos + 1 ≤ p)
            nlinarith
      refine F64.near_accVal hln hexp hε hη hM' (X := fun s => total hi' 0 (nodePos sentence.length (realEntries es) s)) hne
        (fun s _ => (hl s).1) ?_ ?_ ?_ ?_ k (le_trans (mul_le_mul_of_nonneg_right (by exact_mod_cast hk) hδ0) hsmall) ?_ old
      · intro s hs
        obtain ⟨q, e1, _, e2, _⟩ := hsrc s hs
        rw [e1]
        exact lt_of_lt_of_le (Real.exp_pos _) e2
      · intro s hs
        obtain ⟨q, e1, _, e2, e3⟩ := hsrc s hs
        rw [(hl s).2, e1]
        have e4 : -(S * q) ≤ Real.log (total hi' 0 q) := by
          rw [Real.le_log_iff_exp_le (lt_of_lt_of_le (Real.exp_pos _) e2)]
          exact e2
        have := hSM p (by omega)
        linarith
      · rw [forward_sum hi' p, lEnds_real]
        congr 1
        apply List.map_congr_left
        intro s _
        rw [(hl s).2]
      · have := log_total_upper hi' hS hS0 0 (show p ≤ sentence.length by omega) (lt_of_lt_of_le (Real.exp_pos _) hpos)
        rw [realEntries_length] at this
        rw [hM]
        exact this
      · intro s hs
        exact hT s hs (by omega))
    (by
      have := layered_forward (graph_lattice hi') (sentence.length + 1) 0 [] (by intro q hq; omega) (by simp)
      rw [List.range_eq_range']
      simp only [lBegins_real, lEnds_real] at this
      exact this)
    (holdsF_zero _)
    (fun _ => by
      show F64.Near _ (Real.log (total hi' 0 0)) _
      rw [total_self, Real.log_one]
      refine ⟨zero_double.1, ?_⟩
      rw [zero_double.2]
      simp)
    (by simp)
  refine ⟨alpha, T, ?_, h2, ?_⟩
  · unfold Lattice.forwardTable
    rw [latticeOf_nodes_length, ← h1, List.foldlM_map]
    show List.foldlM _ _ (List.range (sentence.length + 1)) = _
    have : ∀ (ps : List Nat) (table : List F64), (∀ p ∈ ps, p ≤ sentence.length) →
        ps.foldlM (fun table pos => do
          let b ← idx (latticeOf sentence es).beginNodes pos
          let e ← idx (latticeOf sentence es).endNodes pos
          Lattice.accPos (latticeOf sentence es).nodes b e table) table =
        ps.foldlM (fun x y => Lattice.accPos (latticeOf sentence es).nodes (lBegins sentence.length es y) (lEnds es y) x) table := by
      intro ps
      induction ps with
      | nil => intro _ _; rfl
      | cons p ps ih =>
        intro table hps
        rw [List.foldlM_cons, List.foldlM_cons, idx_of_getElem? (latticeOf_begin sentence es p (hps p (by simp))),
          idx_of_getElem? (latticeOf_end sentence es p (hps p (by simp)))]
        simp only [res_bind_ok]
        congr 1
        funext t
        exact ih t (fun q hq => hps q (by simp [hq]))
    exact this _ _ (fun p hp => by rw [List.mem_range] at hp; omega)
  · intro p hp r hr
    have hlen : (List.flatMap (fun x => x.2) ((List.range (sentence.length + 1)).map (fun p => (lBegins sentence.length es p, lEnds es p)))).length ≤ es.length + 2 := by
      rw [List.flatMap_map]
      exact flatMap_length_le (fun p => by rw [← lEnds_real]; exact lEnds_nodup p) (fun p x hx => g.end_lt hx) (fun p q x h1 h2 => g.end_inj h1 h2) List.nodup_range
    have h5 := h4 r (by
      simp only [List.nil_append, List.mem_flatMap]
      exact ⟨_, List.mem_map.2 ⟨p, List.mem_range.2 (by omega), rfl⟩, hr⟩) (by omega)
    have hnp : nodePos sentence.length (realEntries es) r = p := by
      rw [← lBegins_real] at hr
      exact nodePos_begin hr
    rw [hnp] at h5
    exact h5.mono (mul_le_mul_of_nonneg_right (by exact_mod_cast (by omega)) hδ0)

theorem backwardTable_doubles {ε η S : ℝ} (hln : LnWithin ε) (hexp : ExpWithin η) (hε : ε ≤ 1 / 8) (hη : η ≤ 1 / 8)
    {sentence : List UInt8} (hi : Inside sentence.length es) (hd : NoDeadEnds sentence.length es) (hi' : Inside sentence.length (realEntries es))
    (hf : ∀ e ∈ es, Spec.Finite e.score ∧ |real e.score| ≤ S) (hS0 : 0 ≤ S) {M : ℝ}
    (hM : M = sentence.length * (S + Real.log ((es.length + 2 : Nat) : ℝ))) (hM' : M ≤ 2 ^ 50)
    (hsmall : ((es.length + 2 : Nat) : ℝ) * (ε + 2 * η + F64.u * (M + 320)) ≤ 1) :
    ∃ alpha T, (latticeOf sentence es).backwardTable = .ok alpha ∧ HoldsF alpha (es.length + 2) T ∧
      ∀ p, p ≤ sentence.length → ∀ r ∈ lEnds es p,
        F64.Near (T r) (Real.log (total hi' p sentence.length)) ((es.length + 2 : Nat) * (ε + 2 * η + F64.u * (M + 320))) := by
  have g := graph_lattice hi
  have hconn : ∀ p, lEnds es p ≠ [] → lBegins sentence.length es p ≠ [] := by
    intro p hp
    have := hd p (by
      obtain ⟨r, hr⟩ := List.exists_mem_of_ne_nil _ hp
      rcases mem_lEnds.1 hr with ⟨_, h⟩ | ⟨j, e, _, h1, h2⟩
      · exact .inl h
      · exact .inr ⟨e, List.mem_of_getElem? h1, h2⟩)
    rcases this with h | ⟨e, he, h⟩
    · exact List.ne_nil_of_mem (mem_lBegins.2 (.inl ⟨rfl, h⟩))
    · obtain ⟨j, hj⟩ := List.getElem?_of_mem he
      exact List.ne_nil_of_mem (mem_lBegins.2 (.inr ⟨j, e, rfl, hj, h⟩))
  have hd' := noDeadEnds_real hd
  have hS := scores_real hf
  have hl := fun i => lScore_real (fun e he => (hf e he).1) (es := es) i
  have hN : (1 : ℝ) ≤ ((es.length + 2 : Nat) : ℝ) := by exact_mod_cast (by omega : 1 ≤ es.length + 2)
  have hlogN := Real.log_nonneg hN
  set δ := ε + 2 * η + F64.u * (M + 320) with hδ
  have hM0 : 0 ≤ M := by rw [hM]; positivity
  have hδ0 : 0 ≤ δ := by
    have h1 := F64.lnWithin_nonneg hln
    have h2 := F64.expWithin_nonneg hexp
    have h3 := mul_nonneg F64.u_pos.le (show 0 ≤ M + 320 by linarith)
    linarith
  have hSM : ∀ q : Nat, q ≤ sentence.length → S * q ≤ M := by
    intro q hq
    have hq' : (q : ℝ) ≤ sentence.length := by exact_mod_cast hq
    rw [hM]
    have hq0 : (0 : ℝ) ≤ q := Nat.cast_nonneg _
    nlinarith
  -- the sum for a node, and where it is positive
  have hlower : ∀ p, p ≤ sentence.length → ∀ r ∈ lEnds es p,
      Real.exp (-(S * (sentence.length - p : Nat))) ≤ total hi' p sentence.length := by
    intro p hp r hr
    refine total_lower_back hi' hd' hS hS0 (sentence.length - p) p (by omega) ?_
    rcases mem_lEnds.1 hr with ⟨_, h⟩ | ⟨j, e, _, h1, h2⟩
    · exact .inl h
    · exact .inr ⟨_, mem_realEntries.2 ⟨e, List.mem_of_getElem? h1, rfl⟩, h2⟩
  obtain ⟨alpha, T, h1, h2, h4⟩ := levels_any (size := es.length + 2) (nodes := (latticeOf sentence es).nodes) (w := lScore es)
    (fun i hil => by
      have : i < (latticeOf sentence es).nodes.length := by rw [latticeOf_nodes_length]; exact hil
      exact ⟨_, List.getElem?_eq_getElem this, (latticeOf_score sentence es i _ (List.getElem?_eq_getElem this)).1⟩)
    (base := 1)
    (fun k t v => k ≤ es.length + 2 → F64.Near v (Real.log (total hi' (nodeEnd sentence.length (realEntries es) t) sentence.length)) (k * δ))
    (fun {k k' t v} hkk h hk' => (h (by omega)).mono (mul_le_mul_of_nonneg_right (by exact_mod_cast hkk) hδ0))
    ((List.range (sentence.length + 1)).reverse.map (fun p => (lEnds es p, lBegins sentence.length es p))) [] 0
    (List.replicate (es.length + 2) (F64.num false 0)) (fun _ => F64.num false 0)
    (by
      intro lv hlv
      obtain ⟨p, hp, rfl⟩ := List.mem_map.1 hlv
      rw [List.mem_reverse, List.mem_range] at hp
      refine ⟨by rw [← lBegins_real]; exact lBegins_nodup p, fun s hs => g.begin_lt hs, fun t ht => g.end_lt ht, ?_⟩
      intro k T hT t ht old hk
      simp only at hT ht hk ⊢
      have hne := hconn p (List.ne_nil_of_mem ht)
      have hpos := hlower p (by omega) t ht
      have hnp : nodeEnd sentence.length (realEntries es) t = p := by
        rw [← lEnds_real] at ht
        exact nodeEnd_end ht
      rw [hnp]
      have hsrc : ∀ s ∈ lBegins sentence.length es p, ∃ q : Nat, nodeEnd sentence.length (realEntries es) s = q ∧ q ≤ sentence.length ∧
          Real.exp (-(S * (sentence.length - q : Nat))) ≤ total hi' q sentence.length ∧
          -(S * (sentence.length - p : Nat)) ≤ lScore (realEntries es) s + -(S * (sentence.length - q : Nat)) := by
        intro s hs
        rcases mem_lBegins.1 hs with ⟨rfl, h0⟩ | ⟨j, e, rfl, h1, h2⟩
        · refine ⟨sentence.length, rfl, by omega, ?_, ?_⟩
          · rw [total_self]; simp
          · rw [h0]; simp [lScore, ScoreOps.zero]
        · have hin := hi e (List.mem_of_getElem? h1)
          have hmem : j + 2 ∈ lEnds es (e.pos + e.len) := mem_lEnds.2 (.inr ⟨j, e, rfl, h1, rfl⟩)
          refine ⟨e.pos + e.len, ?_, hin.2, hlower (e.pos + e.len) hin.2 _ hmem, ?_⟩
          · rw [← lEnds_real] at hmem
            exact nodeEnd_end hmem
          · have h5 := (abs_le.1 (lScore_bound hS hS0 (j + 2))).1
            have h6 : ((sentence.length - (e.pos + e.len) : Nat) : ℝ) + 1 ≤ (sentence.length - p : Nat) := by
              exact_mod_cast (by omega : sentence.length - (e.pos + e.len) + 1 ≤ sentence.length - p)
            nlinarith
      refine F64.near_accVal hln hexp hε hη hM' (X := fun s => total hi' (nodeEnd sentence.length (realEntries es) s) sentence.length) hne
        (fun s _ => (hl s).1) ?_ ?_ ?_ ?_ k (le_trans (mul_le_mul_of_nonneg_right (by exact_mod_cast hk) hδ0) hsmall) ?_ old
      · intro s hs
        obtain ⟨q, e1, _, e2, _⟩ := hsrc s hs
        rw [e1]
        exact lt_of_lt_of_le (Real.exp_pos _) e2
      · intro s hs
        obtain ⟨q, e1, _, e2, e3⟩ := hsrc s hs
        rw [(hl s).2, e1]
        have e4 : -(S * (sentence.length - q : Nat)) ≤ Real.log (total hi' q sentence.length) := by
          rw [Real.le_log_iff_exp_le (lt_of_lt_of_le (Real.exp_pos _) e2)]
          exact e2
        have := hSM (sentence.length - p) (by omega)
        linarith
      · rw [backward_sum hi' p, lBegins_real]
        congr 1
        apply List.map_congr_left
        intro s _
        rw [(hl s).2]
      · have := log_total_upper hi' hS hS0 p (le_refl sentence.length) (lt_of_lt_of_le (Real.exp_pos _) hpos)
        rw [realEntries_length] at this
        rw [hM]
        exact this
      · intro s hs
        exact hT s hs (by omega))
    (by
      have := layered_backward hi' (graph_lattice hi') (sentence.length + 1) [] (by intro q hq hqn; omega) (by simp)
      simp only [lBegins_real, lEnds_real] at this
      exact this)
    (holdsF_zero _)
    (fun _ => by
      show F64.Near _ (Real.log (total hi' sentence.length sentence.length)) _
      rw [total_self, Real.log_one]
      refine ⟨zero_double.1, ?_⟩
      rw [zero_double.2]
      simp)
    (by simp)
  refine ⟨alpha, T, ?_, h2, ?_⟩
  · unfold Lattice.backwardTable
    rw [latticeOf_nodes_length, ← h1, List.foldlM_map]
    show List.foldlM _ _ (List.range (sentence.length + 1)).reverse = _
    have : ∀ (ps : List Nat) (table : List F64), (∀ p ∈ ps, p ≤ sentence.length) →
        ps.foldlM (fun table pos => do
          let b ← idx (latticeOf sentence es).beginNodes pos
          let e ← idx (latticeOf sentence es).endNodes pos
          Lattice.accPos (latticeOf sentence es).nodes e b table) table =
        ps.foldlM (fun x y => Lattice.accPos (latticeOf sentence es).nodes (lEnds es y) (lBegins sentence.length es y) x) table := by
      intro ps
      induction ps with
      | nil => intro _ _; rfl
      | cons p ps ih =>
        intro table hps
        rw [List.foldlM_cons, List.foldlM_cons, idx_of_getElem? (latticeOf_begin sentence es p (hps p (by simp))),
          idx_of_getElem? (latticeOf_end sentence es p (hps p (by simp)))]
        simp only [res_bind_ok]
        congr 1
        funext t
        exact ih t (fun q hq => hps q (by simp [hq]))
    exact this _ _ (fun p hp => by rw [List.mem_reverse, List.mem_range] at hp; omega)
  · intro p hp r hr
    have hlen : (List.flatMap (fun x => x.2) ((List.range (sentence.length + 1)).reverse.map (fun p => (lEnds es p, lBegins sentence.length es p)))).length ≤ es.length + 2 := by
      rw [List.flatMap_map]
      exact flatMap_length_le (fun p => by rw [← lBegins_real]; exact lBegins_nodup p) (fun p x hx => g.begin_lt hx)
        (fun p q x h1 h2 => g.begin_inj h1 h2) (List.nodup_reverse.2 List.nodup_range)
    have h5 := h4 r (by
      simp only [List.nil_append, List.mem_flatMap]
      exact ⟨_, List.mem_map.2 ⟨p, List.mem_reverse.2 (List.mem_range.2 (by omega)), rfl⟩, hr⟩) (by omega)
    have hnp : nodeEnd sentence.length (realEntries es) r = p := by
      rw [← lEnds_real] at hr
      exact nodeEnd_end hr
    rw [hnp] at h5
    exact h5.mono (mul_le_mul_of_nonneg_right (by exact_mod_cast (by omega)) hδ0)
end

end Tokengeex

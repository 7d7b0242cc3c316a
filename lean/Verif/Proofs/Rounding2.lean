import Verif.Proofs.Rounding
import Verif.Proofs.NBestNear
import Verif.Proofs.BinaryHeap2
import Verif.Props.BinaryHeap
/-
The table of `viterbi` and the sums of `nbest`, with doubles; the agenda of `nbest`, with finite doubles.
-/
namespace Tokengeex
open Spec ScoreOps Tokengeex.Lattice

/-! ### The agenda -/

theorem F64.Finite.ne_nan {x : F64} (h : Finite x) : x ≠ .nan := by rintro rfl; exact h

/-- The states of the agenda, as long as all numbers are finite. -/
def AgendaF64 (data : List (Hypo F64)) : Prop :=
  (∀ x ∈ data, Finite x.fx) ∧ BinaryHeap.Ordered (fun a b : Hypo F64 => b.fx.key ≤ a.fx.key) data

theorem agenda_f64 : HeapLawsOn (agendaHeap F64) AgendaF64 (fun x => Finite x.fx) ∧ HeapMax (agendaHeap F64) AgendaF64 := by
  let le' : Hypo F64 → Hypo F64 → Bool := fun a b => decide (a.fx.key < b.fx.key)
  have hle : ∀ x y : Hypo F64, Finite x.fx → Finite y.fx → Hypo.le x y = le' x y := by
    intro x y hx hy
    rw [Hypo.le_iff]
    show F64.lt x.fx y.fx = _
    unfold F64.lt
    simp [F64.Finite.ne_nan hx, F64.Finite.ne_nan hy, le']
  have ht : ∀ a b c : Hypo F64, b.fx.key ≤ a.fx.key → c.fx.key ≤ b.fx.key → c.fx.key ≤ a.fx.key :=
    fun a b c h1 h2 => Int.le_trans h2 h1
  have h1 : ∀ a b : Hypo F64, le' a b = true → a.fx.key ≤ b.fx.key :=
    fun a b h => Int.le_of_lt (of_decide_eq_true h)
  have h2 : ∀ a b : Hypo F64, le' a b = false → b.fx.key ≤ a.fx.key :=
    fun a b h => Int.not_lt.1 (of_decide_eq_false h)
  refine ⟨⟨?_, ?_, ?_, ?_, fun h => h.1⟩, ?_⟩
  · refine ⟨by simp, ?_⟩
    intro j _ x y hx
    simp at hx
  · intro l h ho hh
    have hp : ((agendaHeap F64).push l h).Perm (h :: l) := BinaryHeap.push_perm _ _ _
    refine ⟨⟨?_, ?_⟩, hp⟩
    · intro x hx
      rcases List.mem_cons.1 (hp.subset hx) with rfl | hx
      · exact hh
      · exact ho.1 x hx
    · have := BinaryHeap.push_ordered ht h1 h2 h ho.2
      rwa [← BinaryHeap.push_congr (S := fun x : Hypo F64 => Finite x.fx) hle ho.1 hh] at this
  · intro l _ h
    exact BinaryHeap.pop_none _ _ h
  · intro l h l' ho hp
    have hperm := BinaryHeap.pop_perm _ _ hp
    refine ⟨⟨fun x hx => ho.1 x (hperm.symm.subset (by simp [hx])), ?_⟩, hperm⟩
    have hp' : BinaryHeap.pop le' l = some (h, l') := by
      rw [← BinaryHeap.pop_congr (S := fun x : Hypo F64 => Finite x.fx) hle ho.1]; exact hp
    exact BinaryHeap.pop_ordered ht h1 h2 ho.2 hp'
  · intro l h l' ho hp x hx
    obtain ⟨j, hj, rfl⟩ := List.mem_iff_getElem.1 hx
    have h3 := BinaryHeap.ordered_root ht (fun a => Int.le_refl _) ho.2 j h _ (BinaryHeap.pop_first _ hp)
      (List.getElem?_eq_getElem hj)
    exact (F64.lt_false (F64.Finite.ne_nan (ho.1 h ((BinaryHeap.pop_perm _ _ hp).symm.subset (by simp))))
      (F64.Finite.ne_nan (ho.1 _ (List.getElem_mem hj)))).2 h3

/-! ### The sums -/

section
variable {len size : Nat} {begins ends : Nat → List Nat} {w : Nat → F64} {B δ : ℝ}

omit w B δ in
/-- A list of nodes that may follow each other is no longer than the sentence, but for the two ends. -/
theorem vkey_length (g : Graph len size begins ends) : ∀ {k : List Nat} {x p : Nat}, VKey begins ends (x :: k) →
    x ∈ begins p → k.length + p ≤ len := by
  intro k
  induction k with
  | nil => intro x p _ hx; simpa using g.begin_le hx
  | cons y k ih =>
    intro x p h hx
    have hc := h.1
    rw [List.isChain_cons_cons] at hc
    have hl := h.2
    rw [List.getLast?_cons_cons] at hl
    obtain ⟨q, h1, h2⟩ := hc.1
    have := ih ⟨hc.2, hl⟩ h2
    rcases g.ends_from h1 with ⟨rfl, _⟩ | ⟨q', hq, hxq⟩
    · exact absurd hx (g.bos p)
    · have := g.begin_inj hx hxq
      subst this
      simp only [List.length_cons]
      omega

omit w B δ in
theorem vkey_len_le (g : Graph len size begins ends) {s : List Nat} (h : VKey begins ends s) : s.length ≤ len + 2 := by
  rcases s with _ | ⟨x, _ | ⟨y, k⟩⟩
  · simp
  · simp
  · have hc := h.1
    rw [List.isChain_cons_cons] at hc
    have hl := h.2
    rw [List.getLast?_cons_cons] at hl
    obtain ⟨q, h1, h2⟩ := hc.1
    have := vkey_length g ⟨hc.2, hl⟩ h2
    simp only [List.length_cons]
    omega

theorem sumV_abs (hw : ∀ i, |real (w i)| ≤ B) (k : List Nat) : |sumV real w k| ≤ k.length * B := by
  induction k with
  | nil => simp [sumV]
  | cons i k ih =>
    rw [sumV_cons, List.length_cons, Nat.cast_add, Nat.cast_one]
    have := abs_add_le (real (w i)) (sumV real w k)
    have := hw i
    linarith

/-- The constants fit: sums of at most `2 (len + 2)` scores, with their errors, are not too big and have errors of at most
`δ`. -/
structure Room (len : Nat) (B δ : ℝ) : Prop where
  pos : 0 ≤ B
  nonneg : 0 ≤ δ
  err : 2 * ((len : ℝ) + 2) * (B + δ) ≤ 2 ^ 53 * δ
  big : 2 * ((len : ℝ) + 2) * (B + δ) ≤ 2 ^ 1000

theorem Room.add (R : Room len B δ) {x y : F64} (hx : Finite x) (hy : Finite y)
    (h : |real x + real y| ≤ 2 * ((len : ℝ) + 2) * (B + δ)) :
    Finite (F64.add x y) ∧ |real (F64.add x y) - (real x + real y)| ≤ δ := by
  obtain ⟨h1, h2⟩ := F64.add_err hx hy (h.trans R.big)
  refine ⟨h1, ?_⟩
  have h53 : (0 : ℝ) < 2 ^ 53 := by positivity
  exact le_of_mul_le_mul_left (h2.trans (h.trans R.err)) h53

theorem Room.le (R : Room len B δ) {k : ℝ} (hk : k ≤ 2 * ((len : ℝ) + 2)) : k * (B + δ) ≤ 2 * ((len : ℝ) + 2) * (B + δ) :=
  mul_le_mul_of_nonneg_right hk (add_nonneg R.pos R.nonneg)

theorem table_bound (g : Graph len size begins ends) (hc : Connected len begins ends) (R : Room len B δ)
    (hw : ∀ i, Finite (w i) ∧ |real (w i)| ≤ B) : ∀ (p r : Nat), r ∈ begins p →
      Finite (vFinal len begins ends w r).2 ∧ |real (vFinal len begins ends w r).2| ≤ ((p : ℝ) + 1) * (B + δ) := by
  intro p
  induction p using Nat.strongRecOn with
  | _ p ih =>
    intro r hr
    have hpl := g.begin_le hr
    obtain ⟨l, hl, hv⟩ := vFinal_pick (w := w) g hr (hc p hpl (List.ne_nil_of_mem hr))
    rw [hv]
    have hB := R.pos
    have hd := R.nonneg
    have hbt : Finite (vFinal len begins ends w l).2 ∧ |real (vFinal len begins ends w l).2| ≤ (p : ℝ) * (B + δ) := by
      rcases g.ends_from hl with ⟨rfl, rfl⟩ | ⟨q, hq, hlq⟩
      · rw [vFinal_bos g]
        refine ⟨F64.finite_posZero, ?_⟩
        show |real (F64.num false 0)| ≤ _
        rw [F64.real_zero]; simp
      · obtain ⟨h1, h2⟩ := ih q hq l hlq
        refine ⟨h1, h2.trans (mul_le_mul_of_nonneg_right ?_ (by linarith))⟩
        have : q + 1 ≤ p := hq
        exact_mod_cast this
    obtain ⟨h1, h2⟩ := hbt
    obtain ⟨h3, h4⟩ := hw r
    have hsum : |real (vFinal len begins ends w l).2 + real (w r)| ≤ ((p : ℝ) + 1) * (B + δ) := by
      have := abs_add_le (real (vFinal len begins ends w l).2) (real (w r))
      linarith
    obtain ⟨h5, h6⟩ := R.add h1 h3 (hsum.trans (R.le (by
      have : (p : ℝ) ≤ len := Nat.cast_le.2 hpl
      linarith)))
    refine ⟨h5, ?_⟩
    show |real (F64.add _ _)| ≤ _
    have e1 := abs_le.1 h2
    have e2 := abs_le.1 h4
    have e3 := abs_le.1 h6
    rw [abs_le]
    constructor <;> linarith

theorem near_f64 (g : Graph len size begins ends) (hc : Connected len begins ends) (R : Room len B δ)
    (hw : ∀ i, Finite (w i) ∧ |real (w i)| ≤ B) (hw0 : real (w 0) = 0) :
    Near real Finite w (fun i => (vFinal len begins ends w i).2) δ len begins ends := by
  have hB := R.pos
  have hd := R.nonneg
  have hbt : ∀ {p l}, p ≤ len → l ∈ ends p → Finite (vFinal len begins ends w l).2 ∧
      |real (vFinal len begins ends w l).2| ≤ ((len : ℝ) + 1) * (B + δ) := by
    intro p l hp hl
    rcases g.ends_from hl with ⟨rfl, rfl⟩ | ⟨q, hq, hlq⟩
    · rw [vFinal_bos g]
      refine ⟨F64.finite_posZero, ?_⟩
      show |real (F64.num false 0)| ≤ _
      rw [F64.real_zero, abs_zero]
      positivity
    · obtain ⟨h1, h2⟩ := table_bound g hc R hw q l hlq
      refine ⟨h1, h2.trans (mul_le_mul_of_nonneg_right ?_ (by linarith))⟩
      have : q ≤ len := by omega
      have : (q : ℝ) ≤ len := Nat.cast_le.2 this
      linarith
  refine ⟨fun hx hy h => F64.real_lt hx hy h, R.nonneg, ?_, hw0, ?_, ?_, fun h => vkey_len_le g h⟩
  · show real (vFinal len begins ends w 0).2 = 0
    rw [vFinal_bos g]
    exact F64.real_zero
  · intro p r l hr hl
    have hpl := g.begin_le hr
    obtain ⟨a, x, b, h1, h2, h3, _⟩ := pBest_spec F64.finiteLaws
      (bt := fun j => (vFinal len begins ends w j).2) (r := w r) (hw r).1 (ends p)
      (fun _ _ => vFinal_good F64.finiteLaws (fun i => (hw i).1) _ _) (List.ne_nil_of_mem hl)
    obtain ⟨h4, h5⟩ := hbt hpl hl
    obtain ⟨h6, h7⟩ := hw r
    have hsum : |real (vFinal len begins ends w l).2 + real (w r)| ≤ 2 * ((len : ℝ) + 2) * (B + δ) := by
      have h8 := abs_add_le (real (vFinal len begins ends w l).2) (real (w r))
      have h9 := R.le (k := (len : ℝ) + 1 + 1) (by linarith [(Nat.cast_nonneg len : (0 : ℝ) ≤ len)])
      linarith
    obtain ⟨h8, h9⟩ := R.add h4 h6 hsum
    have hfin := (table_bound g hc R hw p r hr).1
    have h10 := F64.real_lt (x := (vFinal len begins ends w r).2) hfin h8 (by
      rw [vFinal_begin g hr, h2]
      exact h3 l hl)
    have := abs_le.1 h9
    linarith
  · intro c k gx hck hk hgx hgxs
    have hkl := vkey_len_le g hk
    have hklen : (k.length : ℝ) ≤ len + 2 := by exact_mod_cast hkl
    have hs := sumV_abs (w := w) (B := B) (fun i => (hw i).2) k
    have hgb : |real gx| ≤ ((len : ℝ) + 2) * (B + δ) := by
      have h1 : (k.length : ℝ) * B + k.length * δ ≤ ((len : ℝ) + 2) * (B + δ) := by
        rw [← mul_add]
        exact mul_le_mul_of_nonneg_right hklen (by linarith)
      have e1 := abs_le.1 hgxs
      have e2 := abs_le.1 hs
      rw [abs_le]
      constructor <;> linarith
    obtain ⟨q, hcq⟩ : ∃ q, q ≤ len ∧ c ∈ ends q := by
      cases k with
      | nil => have := hk.2; simp at this
      | cons y k =>
        have hch := hck.1
        rw [List.isChain_cons_cons] at hch
        obtain ⟨q, h1, h2⟩ := hch.1
        exact ⟨q, g.begin_le h2, h1⟩
    obtain ⟨h4, h5⟩ := hbt hcq.1 hcq.2
    obtain ⟨h6, h7⟩ := hw c
    refine ⟨R.add h6 hgx ?_, R.add h4 hgx ?_⟩
    · have h8 := abs_add_le (real (w c)) (real gx)
      have h9 := R.le (k := (len : ℝ) + 2 + 1) (by linarith [(Nat.cast_nonneg len : (0 : ℝ) ≤ len)])
      linarith
    · have h8 := abs_add_le (real (vFinal len begins ends w c).2) (real gx)
      have h9 := R.le (k := (len : ℝ) + 1 + (len + 2)) (by linarith)
      linarith

end

end Tokengeex

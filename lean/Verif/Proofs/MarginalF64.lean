import Verif.Proofs.TablesF64
/-
`populate_marginal` with doubles (C36).
-/
namespace Tokengeex
open Spec

/-! ## Updating `expected` -/

/-- Identifier of the token of node `k`. -/
def nodeId {F : Type} (es : List (Entry F)) (k : Nat) : Nat := (es[k - 2]?.map (·.id)).getD 0

/-- What a node adds. -/
def nodeTerm {F : Type} [RealOps F] (es : List (Entry F)) (A B : Nat → F) (z : F) (k : Nat) : F :=
  RealOps.exp (RealOps.sub (ScoreOps.add (ScoreOps.add (A k) (lScore es k)) (B k)) z)

theorem addMarginals_any {F : Type} [RealOps F] {es : List (Entry F)} {sentence : List UInt8} {alpha beta : List F} {A B : Nat → F} (z : F)
    (ha : HoldsF alpha (es.length + 2) A) (hb : HoldsF beta (es.length + 2) B) {m : Nat} (hid : ∀ e ∈ es, e.id < m) :
    ∀ (ks : List Nat) (expected : List F) (E : Nat → F), (∀ k ∈ ks, ∃ j e, k = j + 2 ∧ es[j]? = some e) → HoldsF expected m E →
      ∃ expected' E', ks.foldlM (Lattice.addMarginal (latticeOf sentence es).nodes alpha beta z) expected = .ok expected' ∧
        HoldsF expected' m E' ∧ ∀ i, E' i =
          (ks.filter fun k => nodeId es k == i).foldl (fun a k => ScoreOps.add a (nodeTerm es A B z k)) (E i) := by
  intro ks
  induction ks with
  | nil => intro expected E _ h; exact ⟨expected, E, rfl, h, by simp⟩
  | cons k ks ih =>
    intro expected E hk h
    obtain ⟨j, e, rfl, hj⟩ := hk k (by simp)
    have hjl := (List.getElem?_eq_some_iff.1 hj).1
    have hnode : (latticeOf sentence es).nodes[j + 2]? = some (LNode.new e.pos e.id e.len e.score) := by simp [latticeOf, hj]
    have hidm := hid e (List.mem_of_getElem? hj)
    obtain ⟨expected₁, h1, h2⟩ := h.set hidm (ScoreOps.add (E e.id)
      (RealOps.exp (RealOps.sub (ScoreOps.add (ScoreOps.add (A (j + 2)) e.score) (B (j + 2))) z)))
    have hstep : Lattice.addMarginal (latticeOf sentence es).nodes alpha beta z expected (j + 2) = .ok expected₁ := by
      unfold Lattice.addMarginal
      rw [idx_of_getElem? hnode, ha.get (by omega), hb.get (by omega)]
      simp only [res_bind_ok]
      rw [show (LNode.new e.pos e.id e.len e.score).tokenId = e.id from rfl, h.get hidm]
      simp only [res_bind_ok]
      exact h1
    obtain ⟨expected₂, E₂, h3, h4, h5⟩ := ih expected₁ _ (fun k' hk' => hk k' (by simp [hk'])) h2
    refine ⟨expected₂, E₂, ?_, h4, ?_⟩
    · rw [List.foldlM_cons, hstep]; exact h3
    · intro i
      have e1 : nodeId es (j + 2) = e.id := by simp [nodeId, hj]
      have e2 : lScore es (j + 2) = e.score := by simp [lScore, hj]
      rw [h5 i, List.filter_cons, e1]
      by_cases hi : e.id = i
      · subst hi
        rw [Function.update_self, if_pos (by simp), List.foldl_cons]
        unfold nodeTerm
        rw [e2]
      · rw [Function.update_of_ne (Ne.symm hi), if_neg (by simpa using hi)]

namespace F64

/-- Adding up approximations. -/
theorem near_foldl {B : ℝ} (hB : B ≤ 2 ^ 100) (hB0 : 0 ≤ B) (f : Nat → F64) (t err : Nat → ℝ) : ∀ (ks : List Nat) (a : F64) (r e : ℝ), Near a r e →
    (∀ k ∈ ks, Near (f k) (t k) (err k)) → |r| + e + (ks.map fun k => |t k| + err k + u * B).sum ≤ B →
    Near (ks.foldl (fun a k => ScoreOps.add a (f k)) a) (r + (ks.map t).sum) (e + (ks.map fun k => err k + u * B).sum) := by
  intro ks
  induction ks with
  | nil => intro a r e h _ _; simpa using h
  | cons k ks ih =>
    intro a r e ha hk hsum
    have hkk := hk k (by simp)
    have huB : 0 ≤ u * B := mul_nonneg u_pos.le hB0
    simp only [List.map_cons, List.sum_cons] at hsum ⊢
    have hrest : 0 ≤ (ks.map fun k => |t k| + err k + u * B).sum := List.sum_nonneg (by
      intro x hx
      obtain ⟨b, hb, rfl⟩ := List.mem_map.1 hx
      have h1 := le_trans (abs_nonneg _) (hk b (by simp [hb])).2
      have h2 := abs_nonneg (t b)
      linarith)
    have habs := abs_add_le r (t k)
    have h1 := Near.add ha hkk (B := B) (by linarith) hB
    have h2 := ih (F64.add a (f k)) (r + t k) (e + err k + u * B) h1 (fun b hb => hk b (by simp [hb])) (by linarith)
    rw [List.foldl_cons]
    have e1 : r + (t k + (ks.map t).sum) = r + t k + (ks.map t).sum := by ring
    have e2 : e + (err k + u * B + (ks.map fun k => err k + u * B).sum) = e + err k + u * B + (ks.map fun k => err k + u * B).sum := by ring
    rw [e1, e2]
    exact h2

variable [Elementary]

/-- What a node adds, approximately. -/
theorem near_nodeTerm {η M d a b c : ℝ} (hexp : ExpWithin η) {x s y z : F64} (hx : Near x a d) (hs : Spec.Finite s) (hy : Near y b d) (hz : Near z c d)
    (ha : |a| ≤ M) (hsM : |real s| ≤ M) (hb : |b| ≤ M) (hc : |c| ≤ M) (hd : 6 * d ≤ 1 / 4) (hM : u * (9 * M + 6) ≤ 3 * d) (hM2 : M ≤ 2 ^ 50)
    (h0 : a + real s + b - c ≤ 0) :
    Near (Elementary.exp (F64.sub (F64.add (F64.add x s) y) z)) (Real.exp (a + real s + b - c)) (η + 12 * d * Real.exp (a + real s + b - c)) := by
  have hu0 := u_pos
  have hd0 : 0 ≤ d := le_trans (abs_nonneg _) hx.2
  have hM0 : 0 ≤ M := le_trans (abs_nonneg _) ha
  have hbig : (2 : ℝ) ^ 50 * 4 + 3 ≤ 2 ^ 100 := by norm_num
  have s1 := Near.add hx (Pruner.near_self hs) (B := 2 * M + 1) (by linarith [abs_add_le a (real s)]) (by linarith)
  have h1 : u * (2 * M + 1) ≤ 1 := by nlinarith
  have s2 := Near.add s1 hy (B := 3 * M + 3) (by
    have := abs_add_le (a + real s) b
    have := abs_add_le a (real s)
    linarith) (by linarith)
  have h2 : u * (3 * M + 3) ≤ 1 := by nlinarith
  have s3 := Near.sub s2 hz (B := 4 * M + 2) (by
    have := abs_sub (a + real s + b) c
    have := abs_add_le (a + real s) b
    have := abs_add_le a (real s)
    nlinarith) (by linarith)
  have s4 : Near (F64.sub (F64.add (F64.add x s) y) z) (a + real s + b - c) (6 * d) := by
    refine Near.mono s3 ?_
    nlinarith
  obtain ⟨s4f, s4e⟩ := s4
  have s4b := (abs_le.1 s4e).2
  obtain ⟨g1, g2⟩ := hexp _ s4f (by linarith)
  have g3 := exp_close s4e (by linarith)
  refine ⟨g1, ?_⟩
  have g4 := abs_add_le (real (Elementary.exp (F64.sub (F64.add (F64.add x s) y) z)) - Real.exp (real (F64.sub (F64.add (F64.add x s) y) z)))
    (Real.exp (real (F64.sub (F64.add (F64.add x s) y) z)) - Real.exp (a + real s + b - c))
  rw [sub_add_sub_cancel] at g4
  linarith
end F64

theorem sum_filter_map (p : Nat → Bool) (f : Nat → ℝ) (l : List Nat) : ((l.filter p).map f).sum = (l.map fun k => if p k then f k else 0).sum := by
  induction l with
  | nil => rfl
  | cons k l ih =>
    rw [List.filter_cons, List.map_cons, List.sum_cons, ← ih]
    by_cases h : p k = true
    · rw [if_pos h, if_pos h, List.map_cons, List.sum_cons]
    · rw [if_neg h, if_neg h, zero_add]

theorem idOf_real {es : List (Entry F64)} (j : Nat) : idOf (realEntries es) j = nodeId es (j + 2) := by
  simp [idOf, nodeId, realEntries, List.getElem?_map]
  cases es[j]? <;> rfl

end Tokengeex

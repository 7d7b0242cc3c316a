import Verif.Spec.Dropout
import Verif.Proofs.Chance
import Verif.Proofs.Ties
/-
`encode` with dropout as a random choice of places that may not be used.
-/
namespace Tokengeex
open Spec ScoreOps

namespace Model
variable {F : Type} [ScoreOps F]

/-! ### The dynamic program for given edges -/

/-- The table after the positions below `p` are processed, when the edges are `e`. -/
def gTable (e : Nat → Nat → Option Nat) (w : Nat → F) : Nat → Nat → DpNode F
  | 0, i => pInit.1 i
  | p + 1, i =>
    if (gTable e w p p).start.isNone then gTable e w p i
    else match e p i with
      | none => gTable e w p i
      | some id => updNode true w p (gTable e w p p) (gTable e w p i) id

section
variable {e : Nat → Nat → Option Nat} {w : Nat → F} (hlt : ∀ i s id, e s i = some id → s < i)
include hlt

theorem gTable_le {p i : Nat} (h : i ≤ p) : gTable e w (p + 1) i = gTable e w p i := by
  have : e p i = none := by
    cases he : e p i with
    | none => rfl
    | some id => have := hlt _ _ _ he; omega
  rw [gTable, this]
  dsimp only
  by_cases h : (gTable e w p p).start.isNone = true
  · rw [if_pos h]
  · rw [if_neg h]

theorem gTable_stable {i p : Nat} (h : i ≤ p) : gTable e w p i = gTable e w i i := by
  induction p with
  | zero => obtain rfl : i = 0 := by omega
            rfl
  | succ p ih =>
    rcases Nat.lt_or_ge p i with h' | h'
    · obtain rfl : i = p + 1 := by omega
      rfl
    · rw [gTable_le hlt h', ih h']

theorem gTable_sound (p : Nat) : gTable e w p 0 = { id := 0, score := zero, start := some 0 } ∧
    ∀ i s, 0 < i → (gTable e w p i).start = some s →
      s < p ∧ (gTable e w p s).start.isSome ∧ e s i = some (gTable e w p i).id ∧
      (gTable e w p i).score = add (gTable e w p s).score (w (gTable e w p i).id) := by
  induction p with
  | zero =>
    refine ⟨by simp [gTable, pInit], ?_⟩
    intro i s hi
    have : ¬ i = 0 := by omega
    simp [gTable, pInit, this]
  | succ p ih =>
    obtain ⟨ih0, ih1⟩ := ih
    refine ⟨by rw [gTable_le hlt (Nat.zero_le p)]; exact ih0, ?_⟩
    intro i s hi hs
    have old : gTable e w (p + 1) i = gTable e w p i → s < p + 1 ∧ (gTable e w (p + 1) s).start.isSome ∧
        e s i = some (gTable e w (p + 1) i).id ∧
        (gTable e w (p + 1) i).score = add (gTable e w (p + 1) s).score (w (gTable e w (p + 1) i).id) := by
      intro ee
      rw [ee] at hs ⊢
      obtain ⟨h1, h2, h3, h4⟩ := ih1 i s hi hs
      rw [gTable_le hlt (show s ≤ p by omega)]
      exact ⟨by omega, h2, h3, h4⟩
    by_cases hp : (gTable e w p p).start.isNone = true
    · exact old (by rw [gTable, if_pos hp])
    · cases he : e p i with
      | none => exact old (by rw [gTable, if_neg hp, he])
      | some id =>
        have hk : gTable e w (p + 1) i = updNode true w p (gTable e w p p) (gTable e w p i) id := by
          rw [gTable, if_neg hp, he]
        unfold updNode at hk
        by_cases hc : (true && ((gTable e w p i).start.isNone ||
            lt (gTable e w p i).score (add (gTable e w p p).score (w id)))) = true
        · rw [if_pos hc] at hk
          rw [hk] at hs ⊢
          simp only [Option.some.injEq] at hs
          subst hs
          rw [gTable_le hlt (Nat.le_refl p)]
          refine ⟨by omega, ?_, he, rfl⟩
          cases h : (gTable e w p p).start with
          | none => simp [h] at hp
          | some _ => rfl
        · rw [if_neg hc] at hk; exact old hk

theorem gTable_final (n : Nat) : Final e w (gTable e w n) := by
  obtain ⟨h0, h1⟩ := gTable_sound (w := w) hlt n
  refine ⟨h0, hlt, fun i s hi hs => ?_⟩
  obtain ⟨_, h3, h4, h5⟩ := h1 i s hi hs
  exact ⟨h3, h4, h5⟩

omit hlt in
theorem gTable_mono (p i : Nat) (h : (gTable e w p i).start.isSome = true) : (gTable e w (p + 1) i).start.isSome = true := by
  rw [gTable]
  by_cases hp : (gTable e w p p).start.isNone = true
  · rw [if_pos hp]; exact h
  · rw [if_neg hp]
    cases e p i with
    | none => exact h
    | some id =>
      show (updNode true w p (gTable e w p p) (gTable e w p i) id).start.isSome = true
      unfold updNode
      split
      · rfl
      · exact h

omit hlt in
theorem gTable_good {good tok : F → Prop} (L : ScoreLaws F good tok) (hw : ∀ id, tok (w id)) (p i : Nat) :
    good (gTable e w p i).score := by
  induction p generalizing i with
  | zero =>
    simp only [gTable, pInit]
    split <;> exact L.zero_good
  | succ p ih =>
    rw [gTable]
    by_cases hp : (gTable e w p p).start.isNone = true
    · rw [if_pos hp]; exact ih i
    · rw [if_neg hp]
      cases e p i with
      | none => exact ih i
      | some id =>
        show good (updNode true w p (gTable e w p p) (gTable e w p i) id).score
        unfold updNode
        split
        · exact L.add_good (ih p) (hw _)
        · exact ih i

/-- Right after position `s` and for ever. -/
theorem gTable_relaxed {good tok : F → Prop} (L : ScoreLaws F good tok) (hw : ∀ id, tok (w id)) {s i id : Nat}
    (he : e s i = some id) (hs : (gTable e w s s).start.isSome = true) :
    (gTable e w i i).start.isSome = true ∧
    lt (gTable e w i i).score (add (gTable e w s s).score (w id)) = false := by
  have hsi := hlt _ _ _ he
  have hg := gTable_good (e := e) L hw
  have hgc : good (add (gTable e w s s).score (w id)) := L.add_good (hg _ _) (hw _)
  have base : (gTable e w (s + 1) i).start.isSome = true ∧
      lt (gTable e w (s + 1) i).score (add (gTable e w s s).score (w id)) = false := by
    rw [gTable, if_neg (by cases h : (gTable e w s s).start <;> simp [h] at hs ⊢), he]
    simp only [updNode, Bool.true_and]
    split
    · exact ⟨rfl, L.irrefl hgc⟩
    · rename_i hc
      simp only [Bool.or_eq_true, not_or, Bool.not_eq_true] at hc
      refine ⟨?_, hc.2⟩
      cases h : (gTable e w s i).start <;> simp [h] at hc ⊢
  have step : ∀ p, ((gTable e w p i).start.isSome = true ∧ lt (gTable e w p i).score (add (gTable e w s s).score (w id)) = false) →
      ((gTable e w (p + 1) i).start.isSome = true ∧
        lt (gTable e w (p + 1) i).score (add (gTable e w s s).score (w id)) = false) := by
    intro p hp
    rw [gTable]
    by_cases hpp : (gTable e w p p).start.isNone = true
    · rw [if_pos hpp]; exact hp
    · rw [if_neg hpp]
      cases he' : e p i with
      | none => exact hp
      | some id' =>
        show (updNode true w p (gTable e w p p) (gTable e w p i) id').start.isSome = true ∧
          lt (updNode true w p (gTable e w p p) (gTable e w p i) id').score _ = false
        unfold updNode
        split
        · rename_i hc
          refine ⟨rfl, ?_⟩
          simp only [Bool.and_eq_true, Bool.or_eq_true] at hc
          have hlt' : lt (gTable e w p i).score (add (gTable e w p p).score (w id')) = true := by
            rcases hc.2 with h | h
            · cases h' : (gTable e w p i).start <;> simp [h'] at h hp
            · exact h
          have hgn : good (add (gTable e w p p).score (w id')) := L.add_good (hg _ _) (hw _)
          exact L.trans hgn (hg _ _) hgc (L.asymm (hg _ _) hgn hlt') hp.2
        · exact hp
  have up : ∀ d, ((gTable e w (s + 1 + d) i).start.isSome = true ∧
      lt (gTable e w (s + 1 + d) i).score (add (gTable e w s s).score (w id)) = false) := by
    intro d
    induction d with
    | zero => exact base
    | succ d ih => exact step _ ih
  have := up (i - (s + 1))
  rwa [show s + 1 + (i - (s + 1)) = i by omega] at this

theorem gTable_dominates {good tok : F → Prop} (L : ScoreLaws F good tok) (hw : ∀ id, tok (w id)) {i : Nat} {ids : List Nat}
    (h : Chain e i ids) : (gTable e w i i).start.isSome = true ∧ lt (gTable e w i i).score (sumScore w ids) = false ∧
      good (sumScore w ids) := by
  induction h with
  | nil => exact ⟨by simp [gTable, pInit], by simpa [gTable, pInit, sumScore] using L.irrefl L.zero_good, L.zero_good⟩
  | @snoc s i id ids hc he ih =>
    obtain ⟨h1, h2, h3⟩ := ih
    have hg := gTable_good (e := e) L hw
    obtain ⟨h4, h5⟩ := gTable_relaxed hlt L hw he h1
    rw [sumScore_snoc]
    refine ⟨h4, ?_, L.add_good h3 (hw _)⟩
    exact L.trans (hg _ _) (L.add_good (hg _ _) (hw _)) (L.add_good h3 (hw _)) h5 (L.add_mono (hg s s) h3 (hw id) h2)

end

/-! ### From the table to the result -/

/-- What `encode` does with the table. -/
def finish (n : Nat) (T : Nat → DpNode F) : Res (List Nat) := backtrack ((List.range (n + 1)).map T) n (n + 1) n []

theorem tbl_map {n : Nat} (T : Nat → DpNode F) : ((List.range (n + 1)).map T).length = n + 1 ∧
    ∀ i, i ≤ n → tbl ((List.range (n + 1)).map T) i = T i := by
  refine ⟨by simp, fun i hi => ?_⟩
  unfold tbl
  rw [List.getD_eq_getElem?_getD, List.getElem?_map, List.getElem?_range (by omega)]
  rfl

theorem encode_finish {m : Model F} (hm : m.WF) (s : Str) (dropout : F) (rnd : Nat → F) :
    m.encode s dropout rnd = finish (enc s).length (m.pTable dropout rnd (enc s) (enc s).length).1 := by
  obtain ⟨st, hs, hl, ht, hk⟩ := fill_ok hm dropout rnd (enc s)
  have hst : st.1 = (List.range ((enc s).length + 1)).map (m.pTable dropout rnd (enc s) (enc s).length).1 := by
    refine List.ext_getElem? fun i => ?_
    rcases Nat.lt_or_ge i ((enc s).length + 1) with h | h
    · rw [tbl_getElem? (by omega), ht i (by omega), List.getElem?_map, List.getElem?_range h]
      rfl
    · rw [List.getElem?_eq_none (by omega), List.getElem?_eq_none (by simp; omega)]
  unfold encode encodeR encodeBytes
  rw [hs]
  simp only [res_bind_ok]
  rw [hst]
  unfold finish
  cases backtrack (List.map (m.pTable dropout rnd (enc s) (enc s).length).1 (List.range ((enc s).length + 1))) (enc s).length
      ((enc s).length + 1) (enc s).length [] <;> rfl

theorem finish_best {e : Nat → Nat → Option Nat} {w : Nat → F} (hlt : ∀ i s id, e s i = some id → s < i)
    {good tok : F → Prop} (L : ScoreLaws F good tok) (hw : ∀ id, tok (w id)) (n : Nat) :
    (∃ ids, finish n (gTable e w n) = .ok ids ∧ Chain e n ids ∧
      ∀ other, Chain e n other → lt (sumScore w ids) (sumScore w other) = false) ∨
    (finish n (gTable e w n) = .error (.noPath n n) ∧ ¬ ∃ ids, Chain e n ids) := by
  obtain ⟨hl, hdp⟩ := tbl_map (n := n) (gTable e w n)
  cases hst : (gTable e w n n).start with
  | some st =>
    left
    obtain ⟨ids, h1, h2, h3⟩ := backtrack_ok (gTable_final hlt n) hl hdp n (Nat.le_refl _) (by simp [hst]) (n + 1) (by omega) []
    refine ⟨ids, by rw [List.append_nil] at h1; exact h1, h2, fun other ho => ?_⟩
    rw [h3]
    exact (gTable_dominates hlt L hw ho).2.1
  | none =>
    right
    have hn : 0 < n := by
      rcases Nat.eq_zero_or_pos n with h | h
      · subst h
        simp [gTable, pInit] at hst
      · exact h
    refine ⟨backtrack_fail hl hdp hn hst n [], ?_⟩
    rintro ⟨ids, hc⟩
    have := (gTable_dominates hlt L hw hc).1
    rw [hst] at this
    simp at this

/-! ### Steps and coins -/

/-- Position, id and length of a token that may be used. -/
abbrev Step := Nat × Nat × Nat

/-- Trying a step from a reachable position; `g` is false if it is dropped. -/
def upd (w : Nat → F) (g : Bool) (T : Nat → DpNode F) (s : Step) : Nat → DpNode F :=
  fun i => if i = s.1 + s.2.2 then updNode g w s.1 (T s.1) (T i) s.2.1 else T i

/-- A step of `encode`; a coin is thrown for tokens of several bytes at reachable positions. -/
def oStep (w : Nat → F) (x : (Nat → DpNode F) × (Nat → Bool)) (s : Step) : (Nat → DpNode F) × (Nat → Bool) :=
  if (x.1 s.1).start.isNone then x
  else if s.2.2 ≤ 1 then (upd w true x.1 s, x.2) else (upd w (!x.2 0) x.1 s, Coins.tail x.2)

/-- The same with a coin for every token of several bytes. -/
def cStep (w : Nat → F) (x : (Nat → DpNode F) × (Nat → Bool)) (s : Step) : (Nat → DpNode F) × (Nat → Bool) :=
  if s.2.2 ≤ 1 then (if (x.1 s.1).start.isNone then x.1 else upd w true x.1 s, x.2)
  else (if (x.1 s.1).start.isNone then x.1 else upd w (!x.2 0) x.1 s, Coins.tail x.2)

/-- The same with a fixed choice of what is dropped. -/
def dStep (w : Nat → F) (K : Nat → Nat → Bool) (T : Nat → DpNode F) (s : Step) : Nat → DpNode F :=
  if (T s.1).start.isNone then T else upd w (decide (s.2.2 ≤ 1) || !K s.1 (s.1 + s.2.2)) T s

/-- The tokens of several bytes among the steps. -/
def multi (steps : List Step) : List (Nat × Nat) := steps.filterMap fun s => if s.2.2 ≤ 1 then none else some (s.1, s.1 + s.2.2)

theorem multi_cons (s : Step) (steps : List Step) :
    multi (s :: steps) = if s.2.2 ≤ 1 then multi steps else (s.1, s.1 + s.2.2) :: multi steps := by
  unfold multi
  rw [List.filterMap_cons]
  by_cases h : s.2.2 ≤ 1
  · simp [h]
  · simp [h]

open Coins in
/-- Coins that are thrown for unreachable positions do not matter. -/
theorem mean_steps (w : Nat → F) (p : ℝ) (Φ : (Nat → DpNode F) → ℝ) : ∀ (steps : List Step) (T : Nat → DpNode F) (n : Nat),
    (multi steps).length ≤ n →
    mean p n (fun c => Φ (steps.foldl (oStep w) (T, c)).1) =
      mean p (multi steps).length (fun c => Φ (steps.foldl (cStep w) (T, c)).1) := by
  intro steps
  induction steps with
  | nil =>
    intro T n _
    exact (mean_const p n (Φ T)).trans (mean_const p _ (Φ T)).symm
  | cons s steps ih =>
    intro T n hn
    rw [multi_cons] at hn ⊢
    simp only [List.foldl_cons]
    by_cases h1 : s.2.2 ≤ 1
    · rw [if_pos h1] at hn ⊢
      have e1 : (fun c => Φ (steps.foldl (oStep w) (oStep w (T, c) s)).1) =
          fun c => Φ (steps.foldl (oStep w) (if (T s.1).start.isNone then T else upd w true T s, c)).1 := by
        funext c
        unfold oStep
        by_cases h : (T s.1).start.isNone = true
        · simp only [h, if_true]
        · simp only [h, h1, if_true, if_false, Bool.false_eq_true]
      have e2 : (fun c => Φ (steps.foldl (cStep w) (cStep w (T, c) s)).1) =
          fun c => Φ (steps.foldl (cStep w) (if (T s.1).start.isNone then T else upd w true T s, c)).1 := by
        funext c
        rw [cStep, if_pos h1]
      rw [e1, e2]
      exact ih _ n hn
    · rw [if_neg h1, List.length_cons] at hn ⊢
      by_cases h : (T s.1).start.isNone = true
      · have e1 : (fun c => Φ (steps.foldl (oStep w) (oStep w (T, c) s)).1) =
            fun c => Φ (steps.foldl (oStep w) (T, c)).1 := by
          funext c
          rw [oStep, if_pos h]
        have e2 : ∀ b, (fun c => Φ (steps.foldl (cStep w) (cStep w (T, push b c) s)).1) =
            fun c => Φ (steps.foldl (cStep w) (T, c)).1 := by
          intro b
          funext c
          rw [cStep, if_neg h1, if_pos h, tail_push]
        rw [e1, mean_succ, e2, e2, ih T n (by omega)]
        ring
      · obtain ⟨n, rfl⟩ : ∃ n', n = n' + 1 := ⟨n - 1, by omega⟩
        have e1 : ∀ b, (fun c => Φ (steps.foldl (oStep w) (oStep w (T, push b c) s)).1) =
            fun c => Φ (steps.foldl (oStep w) (upd w (!b) T s, c)).1 := by
          intro b
          funext c
          rw [oStep, if_neg h, if_neg h1, tail_push]
          rfl
        have e2 : ∀ b, (fun c => Φ (steps.foldl (cStep w) (cStep w (T, push b c) s)).1) =
            fun c => Φ (steps.foldl (cStep w) (upd w (!b) T s, c)).1 := by
          intro b
          funext c
          rw [cStep, if_neg h1, if_neg h, tail_push]
          rfl
        rw [mean_succ, mean_succ, e1, e1, e2, e2, ih _ n (by omega), ih _ n (by omega)]

theorem cStep_dStep (w : Nat → F) (K : Nat → Nat → Bool) : ∀ (steps : List Step) (T : Nat → DpNode F) (c : Nat → Bool),
    (∀ k i j, (multi steps)[k]? = some (i, j) → K i j = c k) →
    (steps.foldl (cStep w) (T, c)).1 = steps.foldl (dStep w K) T := by
  intro steps
  induction steps with
  | nil => intro T c _; rfl
  | cons s steps ih =>
    intro T c hK
    rw [multi_cons] at hK
    rw [List.foldl_cons, List.foldl_cons, cStep, dStep]
    by_cases h1 : s.2.2 ≤ 1
    · rw [if_pos h1] at hK ⊢
      rw [decide_eq_true h1, Bool.true_or]
      exact ih _ c hK
    · rw [if_neg h1] at hK ⊢
      rw [decide_eq_false h1, Bool.false_or, hK 0 s.1 (s.1 + s.2.2) rfl]
      exact ih _ (Coins.tail c) fun k i j h => hK (k + 1) i j h

/-- All steps for an input. -/
def stepsAt (m : Model F) (input : List UInt8) (p : Nat) : List Step := (m.commonPrefixSearch (input.drop p)).map fun c => (p, c)

def stepsBelow (m : Model F) (input : List UInt8) (n : Nat) : List Step := (List.range n).flatMap (m.stepsAt input)

omit [ScoreOps F] in
theorem stepsBelow_succ (m : Model F) (input : List UInt8) (n : Nat) :
    m.stepsBelow input (n + 1) = m.stepsBelow input n ++ m.stepsAt input n := by
  unfold stepsBelow
  rw [List.range_succ, List.flatMap_append, List.flatMap_singleton]

/-! ### `encode` in terms of steps -/

/-- The coins that the draws from the `k`-th on amount to: true if the token is dropped. -/
def dropCoins (dropout : F) (rnd : Nat → F) (k : Nat) : Nat → Bool := fun i => !lt dropout (rnd (k + i))

theorem foldl_oStep {dropout : F} (hd : le dropout zero = false) (w : Nat → F) (rnd : Nat → F) (p : Nat) :
    ∀ (L : List (Nat × Nat)), (∀ c ∈ L, 0 < c.2) → ∀ (T : Nat → DpNode F) (k : Nat), (T p).start.isNone = false →
      (L.map fun c => (p, c)).foldl (oStep w) (T, dropCoins dropout rnd k) =
        ((L.foldl (pRelax w dropout rnd p) (T, k)).1, dropCoins dropout rnd (L.foldl (pRelax w dropout rnd p) (T, k)).2) := by
  intro L
  induction L with
  | nil => intro _ T k _; rfl
  | cons c L ih =>
    intro hL T k hT
    rw [List.map_cons, List.foldl_cons, List.foldl_cons]
    have hc := hL c (List.mem_cons_self ..)
    have key : oStep w (T, dropCoins dropout rnd k) (p, c) =
        ((pRelax w dropout rnd p (T, k) c).1, dropCoins dropout rnd (pRelax w dropout rnd p (T, k) c).2) := by
      unfold oStep pRelax dropGuard
      rw [if_neg (by simp [hT])]
      by_cases h1 : c.2 ≤ 1
      · rw [if_pos h1, if_pos (by simp [h1])]
        rfl
      · rw [if_neg h1, if_neg (by simp [h1, hd])]
        have e1 : (!dropCoins dropout rnd k 0) = lt dropout (rnd k) := by
          unfold dropCoins
          rw [Nat.add_zero, Bool.not_not]
        have e2 : Coins.tail (dropCoins dropout rnd k) = dropCoins dropout rnd (k + 1) := by
          funext i
          show (!lt dropout (rnd (k + (i + 1)))) = !lt dropout (rnd (k + 1 + i))
          rw [show k + (i + 1) = k + 1 + i by omega]
        rw [e1, e2]
        rfl
    rw [key]
    refine ih (fun c hc => hL c (List.mem_cons_of_mem _ hc)) _ _ ?_
    have : (pRelax w dropout rnd p (T, k) c).1 p = T p := by
      unfold pRelax
      have : ¬ p = p + c.2 := by omega
      simp only [this, if_false]
    rw [this]; exact hT

theorem foldl_oStep_none (w : Nat → F) (p : Nat) (T : Nat → DpNode F) (c : Nat → Bool) (hT : (T p).start.isNone = true) :
    ∀ (L : List (Nat × Nat)), (L.map fun c => (p, c)).foldl (oStep w) (T, c) = (T, c) := by
  intro L
  induction L with
  | nil => rfl
  | cons x L ih =>
    rw [List.map_cons, List.foldl_cons, oStep, if_pos hT]
    exact ih

theorem pTable_steps {m : Model F} (hm : m.WF) {dropout : F} (hd : le dropout zero = false) (rnd : Nat → F) (input : List UInt8)
    (p : Nat) : (m.stepsBelow input p).foldl (oStep (scoreOf m.vocab)) (pInit.1, dropCoins dropout rnd 0) =
      ((m.pTable dropout rnd input p).1, dropCoins dropout rnd (m.pTable dropout rnd input p).2) := by
  induction p with
  | zero => rfl
  | succ p ih =>
    rw [stepsBelow_succ, List.foldl_append, ih, pTable_succ]
    unfold pPos stepsAt
    cases h : ((m.pTable dropout rnd input p).1 p).start.isNone with
    | true => rw [foldl_oStep_none _ _ _ _ h, if_pos rfl]
    | false =>
      rw [if_neg (by decide)]
      exact foldl_oStep hd _ rnd p _ (fun c hc => (cps_pos hm hc).1) _ _ h

/-! ### A fixed choice -/

theorem foldl_dStep (w : Nat → F) (K : Nat → Nat → Bool) (p : Nat) (L : List (Nat × Nat))
    (hnd : (L.map Prod.snd).Nodup) (hpos : ∀ c ∈ L, 0 < c.2) (T : Nat → DpNode F) (hT : (T p).start.isNone = false) (i : Nat) :
    ((L.map fun c => (p, c)).foldl (dStep w K) T) i =
      match L.find? (fun c => decide (p + c.2 = i)) with
      | none => T i
      | some c => updNode (decide (c.2 ≤ 1) || !K p (p + c.2)) w p (T p) (T i) c.1 := by
  induction L generalizing T with
  | nil => rfl
  | cons c L ih =>
    simp only [List.map_cons, List.nodup_cons] at hnd
    have hc := hpos c (by simp)
    have hp : (dStep w K T (p, c)) p = T p := by
      unfold dStep upd
      rw [if_neg (by simp [hT])]
      have : ¬ p = p + c.2 := by omega
      simp only [this, if_false]
    rw [List.map_cons, List.foldl_cons, ih hnd.2 (fun c hc => hpos c (by simp [hc])) _ (by rw [hp]; exact hT), List.find?_cons]
    by_cases hi : p + c.2 = i
    · have hn : L.find? (fun c => decide (p + c.2 = i)) = none := by
        rw [List.find?_eq_none]
        intro c' hc' he
        simp only [decide_eq_true_eq] at he
        apply hnd.1
        have : c'.2 = c.2 := by omega
        rw [← this]
        exact List.mem_map_of_mem hc'
      rw [hn]
      simp only [hi, decide_true]
      unfold dStep upd
      rw [if_neg (by simp [hT])]
      simp only [hi, if_true]
    · have h1 : (dStep w K T (p, c)) i = T i := by
        unfold dStep upd
        rw [if_neg (by simp [hT])]
        have : ¬ i = p + c.2 := fun e => hi e.symm
        simp only [this, if_false]
      simp only [h1, hp, hi, decide_false]

theorem foldl_dStep_none (w : Nat → F) (K : Nat → Nat → Bool) (p : Nat) (T : Nat → DpNode F) (hT : (T p).start.isNone = true) :
    ∀ (L : List (Nat × Nat)), (L.map fun c => (p, c)).foldl (dStep w K) T = T := by
  intro L
  induction L with
  | nil => rfl
  | cons x L ih =>
    rw [List.map_cons, List.foldl_cons, dStep, if_pos hT]
    exact ih

/-- The edges that are left. -/
def keptEdge (m : Model F) (input : List UInt8) (K : Nat → Nat → Bool) (p i : Nat) : Option Nat :=
  if decide (i - p ≤ 1) || !K p i then m.edge input p i else none

omit [ScoreOps F] in
theorem keptEdge_lt {m : Model F} {input : List UInt8} {K : Nat → Nat → Bool} (i s id : Nat)
    (h : m.keptEdge input K s i = some id) : s < i := by
  unfold keptEdge at h
  split at h
  · exact (edge_lt h).1
  · cases h

theorem updNode_false (w : Nat → F) (p : Nat) (cur nd : DpNode F) (id : Nat) : updNode false w p cur nd id = nd := by
  unfold updNode
  simp

theorem gTable_steps {m : Model F} (hm : m.WF) (K : Nat → Nat → Bool) (input : List UInt8) (p : Nat) :
    (m.stepsBelow input p).foldl (dStep (scoreOf m.vocab) K) pInit.1 =
      gTable (m.keptEdge input K) (scoreOf m.vocab) p := by
  induction p with
  | zero => rfl
  | succ p ih =>
    rw [stepsBelow_succ, List.foldl_append, ih]
    funext i
    rw [gTable]
    unfold stepsAt
    cases h : (gTable (m.keptEdge input K) (scoreOf m.vocab) p p).start.isNone with
    | true => rw [foldl_dStep_none _ _ _ _ h, if_pos rfl]
    | false =>
      rw [if_neg (by decide), foldl_dStep _ K p _ (cps_nodup hm input p) (fun c hc => (cps_pos hm hc).1) _ h]
      cases he : m.edge input p i with
      | none =>
        have hn : (m.commonPrefixSearch (input.drop p)).find? (fun c => decide (p + c.2 = i)) = none := by
          rw [List.find?_eq_none]
          intro c hc hci
          simp only [decide_eq_true_eq] at hci
          have := (mem_cps hm).1 hc
          rw [hci, he] at this
          simp at this
        have hk : m.keptEdge input K p i = none := by
          unfold keptEdge
          rw [he]
          split <;> rfl
        rw [hn, hk]
      | some id =>
        have hlt := edge_lt he
        have hmem : (id, i - p) ∈ m.commonPrefixSearch (input.drop p) := by
          rw [mem_cps hm]
          show m.edge input p (p + (i - p)) = some id
          rw [← he]; congr 1; omega
        cases hf : (m.commonPrefixSearch (input.drop p)).find? (fun c => decide (p + c.2 = i)) with
        | none =>
          rw [List.find?_eq_none] at hf
          have := hf _ hmem
          simp only [decide_eq_true_eq] at this
          omega
        | some c =>
          have h1 := List.find?_some hf
          simp only [decide_eq_true_eq] at h1
          have h2 := List.mem_of_find?_eq_some hf
          have h3 := (mem_cps hm).1 h2
          rw [h1, he] at h3
          have h4 : c.2 = i - p := by omega
          simp only [Option.some.injEq] at h3
          unfold keptEdge
          rw [← h4, he]
          simp only [h1]
          by_cases hg : (decide (c.2 ≤ 1) || !K p i) = true
          · rw [hg, if_pos rfl, h3]
          · rw [Bool.not_eq_true] at hg
            rw [hg, if_neg (by decide), updNode_false]

/-! ### Segmentations -/

omit [ScoreOps F] in
theorem avoids_append (vocab : List (ScoredToken F)) (struck : Nat → Nat → Prop) (b : List Nat) : ∀ (a : List Nat) (pos : Nat),
    Avoids vocab struck pos (a ++ b) ↔ Avoids vocab struck pos a ∧ Avoids vocab struck (pos + (a.map (lenOf vocab)).sum) b := by
  intro a
  induction a with
  | nil => intro pos; simp [Avoids]
  | cons x a ih =>
    intro pos
    rw [List.cons_append, Avoids, Avoids, ih, List.map_cons, List.sum_cons, Nat.add_assoc, and_assoc]

omit [ScoreOps F] in
theorem chain_length {vocab : List (ScoredToken F)} {input : List UInt8} {i : Nat} {ids : List Nat}
    (h : Chain ((from_ vocab).edge input) i ids) : (ids.map (lenOf vocab)).sum = i := by
  induction h with
  | nil => rfl
  | @snoc s i id ids _ he ih =>
    have hlt := edge_lt he
    obtain ⟨t, ht, hv⟩ := (wf_from vocab).id_value (edge_tok he)
    have hl : lenOf vocab id = i - s := by
      unfold lenOf
      rw [show vocab[id]? = some t from ht]
      simp only [hv, List.length_take, List.length_drop]
      omega
    rw [List.map_append, List.sum_append, ih, List.map_cons, List.map_nil, List.sum_cons, List.sum_nil, hl]
    omega

omit [ScoreOps F] in
theorem chain_kept {vocab : List (ScoredToken F)} {input : List UInt8} {K : Nat → Nat → Bool} {struck : Nat → Nat → Prop}
    (hK : ∀ i j, K i j = true ↔ struck i j) (hs : ∀ i j, struck i j → i + 1 < j) {i : Nat} {ids : List Nat} :
    Chain ((from_ vocab).keptEdge input K) i ids ↔ Chain ((from_ vocab).edge input) i ids ∧ Avoids vocab struck 0 ids := by
  constructor
  · intro h
    induction h with
    | nil => exact ⟨.nil, trivial⟩
    | @snoc s i id ids _ he ih =>
      unfold keptEdge at he
      by_cases hc : (decide (i - s ≤ 1) || !K s i) = true
      · rw [if_pos hc] at he
        have hch := Chain.snoc ih.1 he
        refine ⟨hch, (avoids_append ..).2 ⟨ih.2, ?_⟩⟩
        have h1 := chain_length ih.1
        have h2 := chain_length hch
        rw [List.map_append, List.sum_append, h1, List.map_cons, List.map_nil, List.sum_cons, List.sum_nil] at h2
        rw [h1, Avoids, show 0 + s + lenOf vocab id = i by omega, Nat.zero_add]
        refine ⟨fun h => ?_, trivial⟩
        have := hs _ _ h
        rw [(hK _ _).2 h] at hc
        simp at hc
        omega
      · rw [if_neg hc] at he
        cases he
  · rintro ⟨h, ha⟩
    induction h with
    | nil => exact .nil
    | @snoc s i id ids hch he ih =>
      obtain ⟨ha1, ha2⟩ := (avoids_append ..).1 ha
      refine .snoc (ih ha1) ?_
      have h1 := chain_length hch
      have h2 := chain_length (Chain.snoc hch he)
      rw [List.map_append, List.sum_append, h1, List.map_cons, List.map_nil, List.sum_cons, List.sum_nil] at h2
      rw [h1, Avoids, show 0 + s + lenOf vocab id = i by omega, Nat.zero_add] at ha2
      unfold keptEdge
      rw [if_pos]
      · exact he
      · have : K s i = false := by
          cases h : K s i with
          | false => rfl
          | true => exact absurd ((hK _ _).1 h) ha2.1
        simp [this]

end Model
end Tokengeex

import Verif.Model.Float64Train
import Verif.Proofs.Reread2
import Verif.Proofs.Cli
import Verif.Props.Prune
import Verif.Props.Cli
/-
The scores that the commands write are finite.
-/
namespace Tokengeex
open Spec ScoreOps RealOps Cli

/-! ### Pruning -/

namespace Pruner
variable {F : Type} [TrainOps F]

theorem mapM_each {α β : Type} {f : α → Res β} : ∀ {l : List α} {r : List β}, l.mapM f = .ok r →
    ∀ y ∈ r, ∃ x ∈ l, f x = .ok y := by
  intro l
  induction l with
  | nil =>
    intro r h y hy
    rw [List.mapM_nil] at h
    cases h
    simp at hy
  | cons a l ih =>
    intro r h y hy
    rw [List.mapM_cons] at h
    obtain ⟨b, hb, h⟩ := bind_ok h
    obtain ⟨bs, hbs, h⟩ := bind_ok h
    cases h
    rcases List.mem_cons.1 hy with rfl | hy
    · exact ⟨a, by simp, hb⟩
    · obtain ⟨x, hx, h⟩ := ih hbs y hy
      exact ⟨x, by simp [hx], h⟩

/-- The scores of the M-step are differences. -/
theorem mStep_scores {m : Model F} {freqs : List F} {fuel : Nat} {v : List (ScoredToken F)} (h : mStep m freqs fuel = .ok v) :
    ∀ t ∈ v, (∃ x y, t.score = sub x y) ∧ TrainOps.isNan t.score = false ∧ TrainOps.isInfinite t.score = false := by
  unfold mStep at h
  by_cases hl : m.vocabSize ≠ freqs.length
  · rw [if_pos hl] at h; simp at h
  · rw [if_neg hl] at h
    obtain ⟨logsum, _, h⟩ := bind_ok h
    obtain ⟨scores, hs, h⟩ := bind_ok h
    by_cases hb : (scores.any fun s => TrainOps.isNan s || TrainOps.isInfinite s) = true
    · rw [if_pos hb] at h; simp at h
    · rw [if_neg hb] at h
      simp only [res_pure, Except.ok.injEq] at h
      intro t ht
      rw [← h] at ht
      obtain ⟨p, hp, rfl⟩ := List.mem_map.1 ht
      have hp2 := (List.of_mem_zip hp).2
      obtain ⟨x, _, hx⟩ := mapM_each hs _ hp2
      obtain ⟨d, _, hx⟩ := bind_ok hx
      simp only [res_pure, Except.ok.injEq] at hx
      refine ⟨⟨d, logsum, hx.symm⟩, ?_⟩
      have hb2 : (TrainOps.isNan p.2 || TrainOps.isInfinite p.2) = false := by
        by_contra hne
        exact hb (List.any_eq_true.2 ⟨_, hp2, eq_true_of_ne_false hne⟩)
      simpa [ScoredToken.cloneWithScore] using hb2

theorem judgeAll_mem {numSamples numAlts : Nat} {freqs : List Nat} {vocab : List (ScoredToken F)} :
    ∀ (l : List ((ScoredToken F × Nat) × (Bool × List Nat))) (st st' : List (Nat × F) × List (ScoredToken F)),
    (∀ p ∈ l, p.1.1 ∈ vocab) → (∀ t ∈ st.2, t ∈ vocab) → judgeAll numSamples numAlts freqs l st = .ok st' →
    ∀ t ∈ st'.2, t ∈ vocab := by
  intro l
  induction l with
  | nil => intro st st' _ hst h; cases h; exact hst
  | cons p l ih =>
    obtain ⟨⟨token, id⟩, a⟩ := p
    intro st st' hl hst h
    rw [judgeAll] at h
    obtain ⟨v, _, h⟩ := bind_ok h
    have hl' : ∀ p ∈ l, p.1.1 ∈ vocab := fun p hp => hl p (by simp [hp])
    cases v with
    | keep =>
      refine ih _ _ hl' ?_ h
      intro t ht
      rcases List.mem_append.1 ht with ht | ht
      · exact hst t ht
      · rw [List.mem_singleton] at ht
        subst ht
        exact hl _ (List.mem_cons_self ..)
    | drop => exact ih _ _ hl' hst h
    | candidate loss => exact ih (st.1 ++ [(id, loss)], st.2) st' hl' hst h

omit [TrainOps F] in
theorem takeCandidates_mem {vocab : List (ScoredToken F)} {size : Nat} : ∀ (cands : List (Nat × F))
    (pruned w : List (ScoredToken F)), (∀ t ∈ pruned, t ∈ vocab) → takeCandidates vocab size cands pruned = .ok w →
    ∀ t ∈ w, t ∈ vocab := by
  intro cands
  induction cands with
  | nil => intro pruned w hp h; cases h; exact hp
  | cons c cands ih =>
    intro pruned w hp h
    rw [takeCandidates] at h
    by_cases hl : pruned.length = size
    · rw [if_pos hl] at h; cases h; exact hp
    · rw [if_neg hl] at h
      obtain ⟨t, ht, h⟩ := bind_ok h
      refine ih _ _ ?_ h
      intro u hu
      rcases List.mem_append.1 hu with hu | hu
      · exact hp u hu
      · rw [List.mem_singleton] at hu
        subst hu
        exact List.mem_of_getElem? (idx_eq_ok.1 ht)

/-- Pruning keeps tokens as they are. -/
theorem pruneVocab_mem {c : Pruner F} {std : Std F} (hstd : StdLaws std) {m : Model F} {rnd : Nat → F} {numSamples : Nat}
    {freqs : List Nat} {fuel : Nat} {w : List (ScoredToken F)} (h : pruneVocab c std m rnd numSamples freqs fuel = .ok w) :
    ∀ t ∈ w, t ∈ m.vocab := by
  unfold pruneVocab at h
  obtain ⟨alts, _, h⟩ := bind_ok h
  obtain ⟨st, h1, h⟩ := bind_ok h
  obtain ⟨cands, _, h⟩ := bind_ok h
  obtain ⟨pruned, h2, h⟩ := bind_ok h
  have h3 := judgeAll_mem (vocab := m.vocab) _ _ _ (by
    intro p hp
    obtain ⟨⟨t, i⟩, a⟩ := p
    have := (List.of_mem_zip hp).1
    have e := (List.mem_zipIdx' this).2
    show t ∈ m.vocab
    rw [e]
    exact List.getElem_mem _) (by simp) h1
  intro t ht
  exact takeCandidates_mem _ _ _ h3 h2 t ((sortUnwrap_perm hstd.vocab h).mem_iff.1 ht)

/-- Every score after pruning is one of the input, or a difference that is not NaN and not infinite. -/
theorem returns_scores {c : Pruner F} {std : Std F} (hstd : StdLaws std) {samples : List Str} {m m' : Model F} {P : F → Prop}
    (hP : ∀ x y : F, TrainOps.isNan (sub x y) = false → TrainOps.isInfinite (sub x y) = false → P (sub x y))
    (h : Relation.ReflTransGen (Pass c std samples) m m') (hm : ∀ t ∈ m.vocab, P t.score) : ∀ t ∈ m'.vocab, P t.score := by
  induction h with
  | refl => exact hm
  | tail _ hp ih =>
    obtain ⟨_, m₁, hem, rnd, freqs, v, fuel₀, _, hv, rfl⟩ := hp
    have h1 : ∀ {n : Nat} {a b : Model F}, EMSteps c samples n a b → (∀ t ∈ a.vocab, P t.score) → ∀ t ∈ b.vocab, P t.score := by
      intro n a b hs
      induction hs with
      | zero => exact fun h => h
      | succ hstep _ ih' =>
        intro _
        refine ih' ?_
        obtain ⟨freqs, v, fuel₀, _, hv, rfl⟩ := hstep
        rw [Model.from_vocab]
        intro t ht
        obtain ⟨⟨x, y, e⟩, h2, h3⟩ := mStep_scores (hv fuel₀ (Nat.le_refl _)) t ht
        rw [e] at h2 h3 ⊢
        exact hP x y h2 h3
    rw [Model.from_vocab]
    intro t ht
    exact h1 hem ih t (pruneVocab_mem hstd (hv fuel₀ (Nat.le_refl _)) t ht)

end Pruner

/-! ### Doubles -/

namespace F64

theorem finite_of_isF64 {x : F64} (h : IsF64 x) (h1 : isNan x = false) (h2 : isInfinite x = false) : Finite x := by
  cases x with
  | nan => simp [isNan] at h1
  | inf s => simp [isInfinite] at h2
  | num s n => exact h

theorem finite_of_normal {x : F64} (h : IsF64 x) (h1 : isNormal x = true) : Finite x := by
  cases x with
  | nan => simp [isNormal] at h1
  | inf s => simp [isNormal] at h1
  | num s n => exact h

theorem _root_.Tokengeex.Spec.Within.finite {B : Nat} {x : F64} (h : Within B x) : Finite x := by
  obtain ⟨s, n, rfl, h, _⟩ := h
  exact h

theorem within_round {s : Bool} {n d B : Nat} (hd : 0 < d) (hB : IsDouble B) (h : n ≤ B * d) : Within B (round s n d) := by
  have h1 : roundMag n d ≤ B := by
    rw [← roundMag_double hB]
    exact roundMag_mono hd (by omega) (by rw [Nat.mul_one]; exact h)
  have h2 : roundMag n d < limit := Nat.lt_of_le_of_lt h1 (isDouble_lt hB)
  exact ⟨s, roundMag n d, by rw [round, if_pos h2], isDouble_roundMag hd h2, h1⟩

theorem within_add {A B : Nat} {x y : F64} (hx : Within A x) (hy : Within B y) (hAB : IsDouble (A + B)) :
    Within (A + B) (add x y) := by
  obtain ⟨s, n, rfl, _, hn⟩ := hx
  obtain ⟨t, m, rfl, _, hm⟩ := hy
  rw [add_num]
  by_cases h1 : s = t
  · rw [if_pos h1]; exact within_round (by omega) hAB (by omega)
  · rw [if_neg h1]
    by_cases h2 : n = m
    · rw [if_pos h2]; exact ⟨false, 0, rfl, finite_zero false, by omega⟩
    · rw [if_neg h2]
      by_cases h3 : m < n
      · rw [if_pos h3]; exact within_round (by omega) hAB (by omega)
      · rw [if_neg h3]; exact within_round (by omega) hAB (by omega)

theorem within_mul {B : Nat} {x y : F64} (hx : Within B x) (hy : Within (2 ^ 1074) y) (hB : IsDouble B) : Within B (mul x y) := by
  obtain ⟨s, n, rfl, _, hn⟩ := hx
  obtain ⟨t, m, rfl, _, hm⟩ := hy
  rw [mul_num]
  exact within_round (Nat.pow_pos (by omega)) hB (Nat.mul_le_mul hn hm)

theorem isDouble_scaled {m k : Nat} (hm : m < 2 ^ 53) (hk : k ≤ 2045) : IsDouble (m * 2 ^ k) := ⟨m, k, hm, hk, rfl⟩

theorem mul_not_finite (x : F64) {y : F64} (hy : y = nan ∨ ∃ s, y = inf s) : ¬ Finite (mul x y) := by
  intro h
  rcases hy with rfl | ⟨s, rfl⟩
  · cases x <;> exact h
  · cases x with
    | nan => exact h
    | inf t => exact h
    | num t n =>
      by_cases hn : n = 0
      · have e : mul (num t n) (inf s) = nan := if_pos hn
        rw [e] at h; exact h
      · have e : mul (num t n) (inf s) = inf (t != s) := if_neg hn
        rw [e] at h; exact h

end F64

/-- The scores of a file that loads are finite. -/
theorem fromFile_finite {N : NumText F64} (hN : SerdeDoubles N) {fs : Files} {path : Str} {t : Tokenizer F64}
    (h : fromFile N fs path = .ok t) : ∀ token ∈ t.model.vocab, Finite token.score := by
  obtain ⟨text, _, hs⟩ := fromFile_ok h
  intro token ht
  obtain ⟨tok, h1⟩ := fromStr_scores hs token ht
  rw [hN.reading] at h1
  exact F64.ofText_finite h1

end Tokengeex

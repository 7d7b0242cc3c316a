import Verif.Props.Prune
import Verif.Props.BinaryHeap
import Verif.Proofs.Float64
import Verif.Model.Float64Train
/-
C48 and C49 for 64-bit floating-point numbers: whatever `exp` and `ln` the platform has, the laws that pruning needs hold.
-/
namespace Tokengeex

open Spec Relation

variable [Elementary]

/-- Doubles have the laws that pruning needs. -/
theorem F64.trainLaws : TrainLaws F64 where
  order := by
    have e : (fun x : F64 => TrainOps.isNan x = false) = (fun x => x ≠ F64.nan) := by
      funext x
      cases x <;> simp [TrainOps.isNan, F64.isNan]
    rw [e]
    exact F64.orderLaws
  normal := by
    intro x hx
    cases x with
    | nan => exact absurd hx (by simp [TrainOps.isNormal, F64.isNormal])
    | inf s => rfl
    | num s n => rfl

/-- After at least one EM iteration no score is NaN or infinite. -/
theorem Pruner.emSteps_finite {c : Pruner F64} {samples : List Str} {n : Nat} {m m' : Model F64}
    (h : Pruner.EMSteps c samples n m m') : ∀ vocab, m = Model.from_ vocab →
      ∃ w, m' = Model.from_ w ∧ (0 < n ∨ (∀ t ∈ vocab, TrainOps.isNan t.score = false ∧ TrainOps.isInfinite t.score = false) →
        ∀ t ∈ w, TrainOps.isNan t.score = false ∧ TrainOps.isInfinite t.score = false) := by
  induction h with
  | zero m => exact fun vocab hm => ⟨vocab, hm, fun h => h.resolve_left (by omega)⟩
  | @succ n m m₁ m₂ h1 _ ih =>
    intro vocab hm
    subst hm
    obtain ⟨w, ids, old, hw, _, _, _, _, hfin⟩ := C48_em_step c samples vocab m₁ h1
    obtain ⟨w', hw', h'⟩ := ih w hw
    exact ⟨w', hw', fun _ => h' (.inr hfin)⟩

/-- **C48** (doubles, sorted) Whatever `exp` and `ln` compute: after each pass of pruning with at least one EM iteration,
the vocabulary is sorted by decreasing score and no score is NaN or infinite.  The same holds without EM iterations if the
vocabulary that pruning started from had no such score. -/
theorem C48_sorted (c : Pruner F64) (std : Pruner.Std F64) (hstd : StdLaws std) (samples : List Str)
    (vocab : List (ScoredToken F64)) (hsize : vocab.length ≤ 4294967294)
    (hem : 0 < c.emSubiters ∨ ∀ t ∈ vocab, t.score ≠ F64.nan ∧ ∀ s, t.score ≠ F64.inf s)
    (m m' : Model F64) (hreach : ReflTransGen (Pruner.Pass c std samples) (Model.from_ vocab) m)
    (hpass : Pruner.Pass c std samples m m') :
    ∃ w, m' = Model.from_ w ∧ w.Pairwise (fun a b => F64.lt a.score b.score = false) ∧
      ∀ t ∈ w, t.score ≠ F64.nan ∧ ∀ s, t.score ≠ F64.inf s := by
  have conv : ∀ x : F64, (TrainOps.isNan x = false ∧ TrainOps.isInfinite x = false) ↔ x ≠ F64.nan ∧ ∀ s, x ≠ F64.inf s := by
    intro x
    cases x with
    | nan => simp [TrainOps.isNan, F64.isNan]
    | inf s => simp [TrainOps.isInfinite, F64.isInfinite]
    | num s n => simp [TrainOps.isNan, F64.isNan, TrainOps.isInfinite, F64.isInfinite]
  simp only [← conv] at hem ⊢
  have step : ∀ v, v.length ≤ 4294967294 → (0 < c.emSubiters ∨ ∀ t ∈ v, TrainOps.isNan t.score = false ∧ TrainOps.isInfinite t.score = false) →
      ∀ m', Pruner.Pass c std samples (Model.from_ v) m' → ∃ w, m' = Model.from_ w ∧ w.length ≤ 4294967294 ∧ ScoreSorted w ∧
        ∀ t ∈ w, TrainOps.isNan t.score = false ∧ TrainOps.isInfinite t.score = false := by
    intro v hv hs m' hp
    obtain ⟨_, m₁, h1, h2⟩ := hp
    obtain ⟨w₁, rfl, hf⟩ := Pruner.emSteps_finite h1 v rfl
    obtain ⟨w₁', e, hl⟩ := Pruner.emSteps_prunedTo h1 v rfl
    have hv' : w₁ = w₁' := by simpa [Model.from_vocab] using congrArg Model.vocab e
    subst hv'
    have hl := prunedTo_length hl
    obtain ⟨w, ids, rfl, hnd, hat, _, hsorted⟩ := C48_prune_step c std hstd samples w₁ (by omega) m' h2
    have hfin := hf hs
    refine ⟨w, rfl, ?_, hsorted F64.trainLaws (fun t ht => (hfin t ht).1), ?_⟩
    · have := nodup_length_le hnd (fun i hi => entriesAt_lt hat hi)
      have := entriesAt_length hat
      omega
    · intro t ht
      exact hfin t (entriesAt_sub hat ht)
  have inv : ∃ v, m = Model.from_ v ∧ v.length ≤ 4294967294 ∧
      (0 < c.emSubiters ∨ ∀ t ∈ v, TrainOps.isNan t.score = false ∧ TrainOps.isInfinite t.score = false) := by
    clear hpass
    induction hreach with
    | refl => exact ⟨vocab, rfl, hsize, hem⟩
    | tail _ h ih =>
      obtain ⟨v, rfl, h1, h2⟩ := ih
      obtain ⟨w, rfl, h3, _, h4⟩ := step v h1 h2 _ h
      exact ⟨w, rfl, h3, .inr h4⟩
  obtain ⟨v, rfl, h1, h2⟩ := inv
  obtain ⟨w, rfl, _, h3, h4⟩ := step v h1 h2 m' hpass
  exact ⟨w, rfl, h3, h4⟩

/-- **C49** is false for doubles, whatever `exp` and `ln` compute: with two protected tokens and one requested, and no EM
iterations, there is a run of pruning that goes on forever. -/
theorem C49_false_doubles (std : Pruner.Std F64) (hstd : StdLaws std) (x y : F64) (hx : x ≠ F64.nan) (hy : y ≠ F64.nan)
    (shrink : Nat → Nat) (dropout : F64) :
    ∃ run : Nat → Model F64, run 0 = Model.from_ [⟨[97], x, true⟩, ⟨[98], y, true⟩] ∧
      ∀ i, Pruner.Pass { vocabSize := 1, shrink := shrink, emSubiters := 0, dropout := dropout } std [['a', 'b']]
        (run i) (run (i + 1)) := by
  have conv : ∀ x : F64, x ≠ F64.nan → TrainOps.isNan x = false := by
    intro x hx
    cases x with
    | nan => exact absurd rfl hx
    | inf s => rfl
    | num s n => rfl
  refine C49_false F64.trainLaws _ _ hstd rfl _ _ (by simp) (by simp) ?_ (by simp) ?_
  · intro t ht
    simp only [List.mem_cons, List.not_mem_nil, or_false] at ht
    rcases ht with rfl | rfl
    · exact conv x hx
    · exact conv y hy
  · intro s hs
    rw [List.mem_singleton.1 hs]
    intro b hb
    have : b = 97 ∨ b = 98 := by
      have : b ∈ [97, 98] := hb
      simpa using this
    rcases this with rfl | rfl
    · exact ⟨_, List.mem_cons_self .., rfl⟩
    · exact ⟨_, List.mem_cons_of_mem _ (List.mem_cons_self ..), rfl⟩

/-- A pass exists: the hypotheses of C48_sorted are met by the run above, with the binary heap of the standard library. -/
example : ∃ m m', Pruner.Pass { vocabSize := 1, shrink := fun n => n / 2, emSubiters := 0, dropout := F64.num false 0 }
    ⟨agendaHeap F64, insertSorter _, insertSorter _⟩ [['a', 'b']] m m' ∧
    ReflTransGen (Pruner.Pass { vocabSize := 1, shrink := fun n => n / 2, emSubiters := 0, dropout := F64.num false 0 }
      ⟨agendaHeap F64, insertSorter _, insertSorter _⟩ [['a', 'b']])
      (Model.from_ [⟨[97], F64.num true 3, true⟩, ⟨[98], F64.num true 2, true⟩]) m := by
  obtain ⟨run, h0, h⟩ := C49_false_doubles ⟨agendaHeap F64, insertSorter _, insertSorter _⟩
    ⟨⟨_, agenda_laws⟩, insertSorter_laws _, insertSorter_laws _⟩ (F64.num true 3) (F64.num true 2) (by simp) (by simp) (fun n => n / 2)
    (F64.num false 0)
  exact ⟨run 0, run 1, h 0, h0 ▸ .refl⟩

end Tokengeex

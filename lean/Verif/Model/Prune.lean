import Verif.Model.PruneCount
import Verif.Model.Sort
import Verif.Model.NBest
import Verif.Model.Marginal
import Mathlib.Logic.Relation
/-
src/prune.rs
-/
namespace Tokengeex

/-- Further operations of `f64` (Rust std) that pruning uses.  No laws are assumed. -/
class TrainOps (F : Type) extends RealOps F where
  isNormal : F → Bool
  isNan : F → Bool
  isInfinite : F → Bool
  max : F → F → F

/-- `ModelVocabularyPruner`, src/prune.rs:6-11.  `shrink n` is `((n as f64) * self.shrink_factor) as usize` (line 174), an
arbitrary function here. -/
structure Pruner (F : Type) where
  vocabSize : Nat
  shrink : Nat → Nat
  emSubiters : Nat
  dropout : F

namespace Pruner
variable {F : Type} [TrainOps F]

open ScoreOps RealOps

/-! ### E-step -/

/-- State of a worker of the E-step: lattice, pool, number of random draws so far, expected frequencies. -/
structure EState (F : Type) where
  lattice : Lattice F
  pool : VecPool
  draws : Nat
  expected : List F

/-- Body of the loop over the snippets of a sample, src/prune.rs:83-98.  The `debug_assert!` is left out: it cannot fail,
an empty sample has no snippets. -/
def eSnippet (m : Model F) (dropout : F) (rnd : Nat → F) (st : EState F) (snippet : List UInt8) : Res (EState F) := do
  let r ← st.lattice.from_ snippet st.pool
  let q ← m.populateNodes r.1 dropout (fun i => rnd (st.draws + i))
  let e ← q.1.populateMarginal st.expected
  if !TrainOps.isNormal e.2 then .error .panic
  else pure { lattice := q.1, pool := r.2, draws := st.draws + q.2, expected := e.1 }

/-- `MAX_SAMPLE_LENGTH`, src/prune.rs:75. -/
def maxSampleLength : Nat := 81920

/-- Loop over the samples of a chunk, src/prune.rs:82-101. -/
def eChunk (m : Model F) (dropout : F) (rnd : Nat → F) (chunk : List Str) (st : EState F) : Res (EState F) :=
  chunk.foldlM (fun st sample => (Parallel.chunks maxSampleLength (enc sample)).foldlM (eSnippet m dropout rnd) st) st

/-- Initial state of a worker, src/prune.rs:78-80. -/
def eInit (m : Model F) : EState F :=
  { lattice := Lattice.new, pool := VecPool.withCapacity maxSampleLength, draws := 0,
    expected := List.replicate m.vocabSize zero }

/-- A worker of the E-step, src/prune.rs:72-115, that does not panic: its operations on the shared vector.  Every worker
has its own random numbers. -/
def EWorker (m : Model F) (dropout : F) (chunk : List Str) (program : List (Parallel.Op Nat F)) : Prop :=
  ∃ rnd st, eChunk m dropout rnd chunk (eInit m) = .ok st ∧
    program = Parallel.lockedAdds (st.expected.zipIdx.map fun p => (p.2, p.1))

/-- A possible result of `run_e_step`, src/prune.rs:64-120. -/
def EStep (m : Model F) (dropout : F) (samples : List Str) (freqs : List F) : Prop :=
  ∃ val, @ParCount Nat Str _ F ⟨zero⟩ ⟨add⟩ (EWorker m dropout) samples val ∧ freqs = (List.range m.vocabSize).map val

/-! ### M-step -/

/-- The loop of `digamma`, src/prune.rs:324-327, with fuel. -/
def digammaLoop : Nat → F → F → Res (F × F)
  | 0, _, _ => .error .diverge
  | fuel + 1, result, x =>
    if lt x (ofNat 7) then digammaLoop fuel (sub result (div (ofNat 1) x)) (add x (ofNat 1)) else .ok (result, x)

/-- `digamma`, src/prune.rs:322-335. -/
def digamma (fuel : Nat) (x : F) : Res F := do
  let r ← digammaLoop fuel (ofNat 0) x
  let x := sub r.2 (div (ofNat 1) (ofNat 2))
  let xx := div (ofNat 1) x
  let xx2 := mul xx xx
  let xx4 := mul xx2 xx2
  pure (add r.1 (sub (add (sub (add (ln x) (mul (div (ofNat 1) (ofNat 24)) xx2)) (mul (div (ofNat 7) (ofNat 960)) xx4))
    (mul (mul (div (ofNat 31) (ofNat 8064)) xx4) xx2)) (mul (mul (div (ofNat 127) (ofNat 30720)) xx4) xx4)))

/-- `EXPECTED_FREQUENCY_THRESHOLD`, src/prune.rs:127. -/
def threshold : F := div (ofNat 1) (ofNat 2)

/-- The loop that collects the alternative vocabulary, src/prune.rs:131-138. -/
def alternativeVocab (vocab : List (ScoredToken F)) (freqs : List F) : List (ScoredToken F) :=
  (freqs.zip vocab).filterMap fun p =>
    if lt p.1 threshold && !p.2.keep then none else some (p.2.cloneWithScore (TrainOps.max p.1 threshold))

/-- `run_m_step`, src/prune.rs:124-170. -/
def mStep (m : Model F) (freqs : List F) (fuel : Nat) : Res (List (ScoredToken F)) :=
  if m.vocabSize ≠ freqs.length then .error .panic
  else do
    let alt := alternativeVocab m.vocab freqs
    let logsum ← digamma fuel ((alt.map (·.score)).foldl add zero)
    let scores ← alt.mapM (fun t => do
      let d ← digamma fuel t.score
      pure (sub d logsum))
    if scores.any (fun s => TrainOps.isNan s || TrainOps.isInfinite s) then .error .panic
    else pure ((alt.zip scores).map fun p => p.1.cloneWithScore p.2)

/-! ### Pruning -/

/-- `always_keep[id]` and `alternatives[id]` after the two tests of src/prune.rs:191-203. -/
def alternativeOf (nbests : List (List (LNode F))) : Res (Bool × List TokenID) := do
  let alwaysKeep ←
    if decide (nbests.length > 1) then do
      let first ← idx nbests 0
      pure (!decide (first.length > 1))
    else pure true
  let alternatives ←
    if decide (nbests.length > 1) then do
      let first ← idx nbests 0
      if first.length = 1 then do
        let second ← idx nbests 1
        pure (second.map (·.tokenId))
      else pure []
    else pure []
  pure (alwaysKeep, alternatives)

/-- Loop over the vocabulary, src/prune.rs:179-204: the entries of `always_keep` and `alternatives`. -/
def segmentTokens (heap : Heap F) (m : Model F) (rnd : Nat → F) (fuel : Nat) : List (ScoredToken F) → Lattice F × VecPool →
    Res (List (Bool × List TokenID))
  | [], _ => .ok []
  | token :: rest, st => do
    let r ← st.1.from_ token.value st.2
    let q ← m.populateNodes r.1 zero rnd
    let nb ← q.1.nbest heap 2 fuel
    let a ← alternativeOf nb.2
    let as ← segmentTokens heap m rnd fuel rest (nb.1, r.2)
    pure (a :: as)

/-- A possible value of `token_frequencies`, src/prune.rs:206-247, if no worker fails. -/
def Frequencies (m : Model F) (rnd : Nat → F) (samples : List Str) (freqs : List Nat) : Prop :=
  ∃ val, ParCount (CountWorker m rnd) samples val ∧ freqs = (List.range m.vocabSize).map val

/-- The loss of removing a token, src/prune.rs:272-289. `numAlternatives` is `alternatives.len()`. -/
def lossOf (numSamples numAlternatives : Nat) (freqs : List Nat) (id : Nat) (alternatives : List TokenID) : Res F := do
  let f ← idx freqs id
  let sum : F := ofNat freqs.sum
  let logsum := ln sum
  let freq : F := ofNat f
  let logprob := sub (ln freq) logsum
  if numAlternatives = 0 then .error .panic
  else do
    let altLogsum := ln (add sum (mul freq (ofNat (numAlternatives - 1))))
    let altLogprob ← alternatives.foldlM (fun acc altId => do
      let g ← idx freqs altId
      pure (add acc (sub (ln (add (ofNat g) freq)) altLogsum))) (ofNat 0)
    pure (mul (div freq (ofNat numSamples)) (sub logprob altLogprob))

/-- What is decided about a token. -/
inductive Verdict (F : Type) where
  | keep
  | drop
  | candidate (loss : F)

/-- Body of the loop over the vocabulary, src/prune.rs:260-299. `alternatives` are those of the token. -/
def judge (numSamples numAlternatives : Nat) (freqs : List Nat) (id : Nat) (token : ScoredToken F)
    (alternatives : Bool × List TokenID) : Res (Verdict F) :=
  if token.keep then .ok .keep
  else do
    let f ← idx freqs id
    if decide (f = 0) && !alternatives.1 then pure .drop
    else if alternatives.2.isEmpty then pure .keep
    else if f ≠ 0 then do
      let loss ← lossOf numSamples numAlternatives freqs id alternatives.2
      if !TrainOps.isNormal loss then .error .panic else pure (.candidate loss)
    else pure .drop

/-- Loop over the vocabulary, src/prune.rs:260-299: `candidates` and `pruned_vocab`, appended to. -/
def judgeAll (numSamples numAlternatives : Nat) (freqs : List Nat) : List ((ScoredToken F × Nat) × (Bool × List TokenID)) →
    List (Nat × F) × List (ScoredToken F) → Res (List (Nat × F) × List (ScoredToken F))
  | [], st => .ok st
  | ((token, id), a) :: rest, st => do
    let v ← judge numSamples numAlternatives freqs id token a
    match v with
    | .keep => judgeAll numSamples numAlternatives freqs rest (st.1, st.2 ++ [token])
    | .drop => judgeAll numSamples numAlternatives freqs rest st
    | .candidate loss => judgeAll numSamples numAlternatives freqs rest (st.1 ++ [(id, loss)], st.2)

/-- Loop over the candidates, src/prune.rs:309-314. -/
def takeCandidates (vocab : List (ScoredToken F)) (prunedSize : Nat) : List (Nat × F) → List (ScoredToken F) →
    Res (List (ScoredToken F))
  | [], pruned => .ok pruned
  | c :: rest, pruned =>
    if pruned.length = prunedSize then .ok pruned
    else do
      let t ← idx vocab c.1
      takeCandidates vocab prunedSize rest (pruned ++ [t])

/-- What pruning is run with: the standard library's heap and sorts. -/
structure Std (F : Type) where
  heap : Heap F
  sortCandidates : Sorter (Nat × F)
  sortVocab : Sorter (ScoredToken F)

/-- `prune_vocab`, src/prune.rs:173-319, once the token frequencies are known. -/
def pruneVocab (c : Pruner F) (std : Std F) (m : Model F) (rnd : Nat → F) (numSamples : Nat) (freqs : List Nat)
    (fuel : Nat) : Res (List (ScoredToken F)) := do
  let prunedSize := max (c.shrink m.vocabSize) c.vocabSize
  let alternatives ← segmentTokens std.heap m rnd fuel m.vocab (Lattice.new, VecPool.withCapacity 32)
  let st ← judgeAll numSamples alternatives.length freqs (m.vocab.zipIdx.zip alternatives) ([], [])
  let candidates ← sortUnwrap std.sortCandidates (fun a b => partialCmp b.2 a.2) st.1
  let pruned ← takeCandidates m.vocab prunedSize candidates st.2
  sortUnwrap std.sortVocab (fun a b => partialCmp b.score a.score) pruned

/-! ### The loop -/

/-- One EM iteration that does not panic, src/prune.rs:25-49. -/
def EMStep (c : Pruner F) (samples : List Str) (m m' : Model F) : Prop :=
  ∃ freqs v fuel₀, EStep m c.dropout samples freqs ∧ (∀ fuel ≥ fuel₀, mStep m freqs fuel = .ok v) ∧ m' = Model.from_ v

/-- The loop over the EM iterations. -/
inductive EMSteps (c : Pruner F) (samples : List Str) : Nat → Model F → Model F → Prop where
  | zero (m : Model F) : EMSteps c samples 0 m m
  | succ {n : Nat} {m m₁ m₂ : Model F} : EMStep c samples m m₁ → EMSteps c samples n m₁ m₂ → EMSteps c samples (n + 1) m m₂

/-- A call of `prune_vocab` that returns `Ok`, and the replacement of the model, src/prune.rs:52-53. -/
def PruneStep (c : Pruner F) (std : Std F) (samples : List Str) (m m' : Model F) : Prop :=
  ∃ rnd freqs v fuel₀, Frequencies m rnd samples freqs ∧
    (∀ fuel ≥ fuel₀, pruneVocab c std m rnd samples.length freqs fuel = .ok v) ∧ m' = Model.from_ v

/-- One pass of the `while` loop, src/prune.rs:24-54, that neither panics nor fails. -/
def Pass (c : Pruner F) (std : Std F) (samples : List Str) (m m' : Model F) : Prop :=
  m.vocabSize > c.vocabSize ∧ ∃ m₁, EMSteps c samples c.emSubiters m m₁ ∧ PruneStep c std samples m₁ m'

/-- `prune` returns `Ok(())`, leaving the model `m'`, src/prune.rs:23-57. -/
def Returns (c : Pruner F) (std : Std F) (samples : List Str) (m m' : Model F) : Prop :=
  Relation.ReflTransGen (Pass c std samples) m m' ∧ ¬ m'.vocabSize > c.vocabSize

end Pruner
end Tokengeex

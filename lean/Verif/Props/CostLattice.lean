import Verif.Proofs.CostLattice
import Verif.Props.Cost
import Verif.Props.Lattice
import Verif.Props.Marginal
/-
C120: lattices are small, and the algorithms on them are linear in the length of the sentence.
-/
namespace Tokengeex
open Spec

section
variable {F : Type} [RealOps F]

omit [RealOps F] in
theorem short_of_tokens {vocab : List (ScoredToken F)} {longest : Nat} (hl : ∀ t ∈ vocab, t.value.length ≤ longest)
    {sentence : List UInt8} {es : List (Entry F)} (h : ∀ e ∈ es, TokenAt vocab sentence e)
    (hp : es.Pairwise (fun a b => ¬ (a.pos = b.pos ∧ a.len = b.len))) : Short sentence.length longest es := by
  refine ⟨fun e he => ?_, hp⟩
  obtain ⟨h1, h2, h3, _⟩ := h e he
  refine ⟨h1, ?_, by omega⟩
  obtain ⟨t, ht, hv⟩ := h3.1
  have := hl t (List.mem_of_getElem? ht)
  rw [hv, List.length_take, List.length_drop] at this
  omega

/-- **C120** For a sentence of `n` bytes and a vocabulary without tokens of more than `longest` bytes, whatever the scores, the
dropout and the history of the lattice and its pool: `populate_nodes` takes at most `(2 * longest + 2) * n` steps and makes a
lattice of at most `longest * n + 2` nodes; on it `viterbi` takes at most `(longest + 4)^2 * (n + 1)` steps and
`populate_marginal` at most `2 * (longest + 3)^2 * (n + 1)`.  The functions that count return what the others return. -/
theorem C120_linear (vocab : List (ScoredToken F)) (longest : Nat) (hl : ∀ t ∈ vocab, t.value.length ≤ longest)
    (p p' : VecPool) (l l₀ : Lattice F) (hist : History p l) (sentence : List UInt8)
    (hfrom : l.from_ sentence p = .ok (l₀, p')) (dropout : F) (rnd : Nat → F) :
    let m := Model.from_ vocab
    let n := sentence.length
    (Cost.populateNodes m l₀ dropout rnd).1 = m.populateNodes l₀ dropout rnd ∧
    (Cost.populateNodes m l₀ dropout rnd).2 ≤ (2 * longest + 2) * n ∧
    ∃ l₁ k, m.populateNodes l₀ dropout rnd = .ok (l₁, k) ∧
      l₁.nodes.length ≤ longest * n + 2 ∧
      (Cost.viterbi l₁).1 = l₁.viterbi ∧ (Cost.viterbi l₁).2 ≤ (longest + 4) ^ 2 * (n + 1) ∧
      ∀ expected, (Cost.populateMarginal l₁ expected).1 = l₁.populateMarginal expected ∧
        (Cost.populateMarginal l₁ expected).2 ≤ 2 * (longest + 3) ^ 2 * (n + 1) := by
  intro m n
  have hl0 : l₀ = latticeOf sentence [] := by
    obtain ⟨_, h1, _⟩ := from_clean l sentence (history_clean hist)
    rw [hfrom] at h1
    simp only [Except.ok.injEq, Prod.mk.injEq] at h1
    exact h1.1
  subst hl0
  have hk : TNode.DepthLe longest m.trie := Cost.shallow_from vocab longest hl
  refine ⟨Cost.populateNodes_fst .., Cost.populateNodes_snd hk (fun s => Cost.drain_length_le _ _ _ hk) _ _ _, ?_⟩
  obtain ⟨es, k, h1, h2, h3, _⟩ := C33_populate vocab sentence dropout rnd
  have hs := short_of_tokens hl h2 h3
  have hn := hs.narrow (sentence := sentence)
  have hlen : (latticeOf sentence es).nodes.length = es.length + 2 := by
    show (LNode.new _ _ _ _ :: LNode.new _ _ _ _ :: es.map _).length = _
    simp
  have hes := hs.length
  have hsent : (latticeOf sentence es).sentence.length = n := rfl
  refine ⟨_, k, h1, ?_, Cost.viterbi_fst _, ?_, fun expected => ⟨Cost.populateMarginal_fst _ _, ?_⟩⟩
  · rw [hlen]
    have : es.length ≤ longest * n := by rw [Nat.mul_comm]; exact hes
    omega
  · refine le_trans (Cost.viterbi_snd hn) ?_
    rw [hlen, hsent]
    have : es.length ≤ n * longest := hes
    nlinarith [Nat.zero_le (n * longest), Nat.zero_le longest]
  · refine le_trans (Cost.populateMarginal_snd hn expected) ?_
    rw [hlen, hsent]
    have : es.length ≤ n * longest := hes
    nlinarith [Nat.zero_le (n * longest), Nat.zero_le longest]

end

/-! ### The square is really there -/

namespace Cost

theorem andThen_ge {α β : Type} (x : Res α × Nat) (f : α → Res β × Nat) : x.2 ≤ (andThen x f).2 := by
  unfold andThen
  split
  · exact Nat.le_refl _
  · exact Nat.le_add_right _ _

theorem andThen_ok {α β : Type} {x : Res α × Nat} {f : α → Res β × Nat} {b : β} (h : (andThen x f).1 = .ok b) :
    ∃ a, x.1 = .ok a ∧ (f a).1 = .ok b ∧ (andThen x f).2 = x.2 + (f a).2 := by
  unfold andThen at h ⊢
  cases hx : x.1 with
  | error e => rw [hx] at h; cases h
  | ok a => rw [hx] at h; exact ⟨a, rfl, h, rfl⟩

theorem foldCost_ge {α σ : Type} {f : σ → α → Res σ × Nat} {c : α → Nat}
    (hf : ∀ s a s', (f s a).1 = .ok s' → c a ≤ (f s a).2) : ∀ {l : List α} {s s' : σ},
    (foldCost f l s).1 = .ok s' → (l.map c).sum ≤ (foldCost f l s).2 := by
  intro l
  induction l with
  | nil => intro s s' _; exact Nat.le_refl _
  | cons a l ih =>
    intro s s' h
    rw [foldCost] at h ⊢
    obtain ⟨s1, h1, h2, h3⟩ := andThen_ok h
    rw [h3, List.map_cons, List.sum_cons]
    have := ih h2
    have := hf _ _ _ h1
    omega

section
variable {F : Type} [RealOps F]

theorem accPos_ge {nodes : List (LNode F)} {targets sources : List Nat} {table table' : List F}
    (h : Lattice.accPos nodes targets sources table = .ok table') :
    targets.length * sources.length ≤ (accPos nodes targets sources table).2 := by
  rw [← accPos_fst] at h
  unfold accPos at h ⊢
  refine le_trans ?_ (foldCost_ge (c := fun _ => sources.length) (fun s a s' hs => ?_) h)
  · rw [List.map_const', List.sum_replicate, smul_eq_mul]
  · obtain ⟨u, _, h2, h3⟩ := andThen_ok hs
    rw [h3]
    have := foldCost_ge (c := fun _ => 1) (f := fun table source => (Lattice.accSource nodes sources a table source, 1))
      (fun _ _ _ _ => Nat.le_refl _) h2
    rw [List.map_const', List.sum_replicate, smul_eq_mul, Nat.mul_one] at this
    omega

theorem forwardTable_ge {l : Lattice F} {t : List F} (h : l.forwardTable = .ok t) :
    ((List.range (l.sentence.length + 1)).map fun q => (l.beginNodes[q]?.getD []).length * (l.endNodes[q]?.getD []).length).sum ≤
      (forwardTable l).2 := by
  rw [← forwardTable_fst] at h
  unfold forwardTable at h ⊢
  obtain ⟨_, _, h2, h3⟩ := andThen_ok h
  rw [h3]
  refine le_trans (foldCost_ge (fun s a s' hs => ?_) h2) (Nat.le_add_left _ _)
  obtain ⟨b, hb, h4, h5⟩ := andThen_ok hs
  obtain ⟨e, he, h6, h7⟩ := andThen_ok h4
  rw [h5, h7]
  rw [accPos_fst] at h6
  have := accPos_ge h6
  have hb' : l.beginNodes[a]? = some b := by
    unfold idx at hb; cases hx : l.beginNodes[a]? with
    | none => rw [hx] at hb; cases hb
    | some y => rw [hx] at hb; cases hb; rfl
  have he' : l.endNodes[a]? = some e := by
    unfold idx at he; cases hx : l.endNodes[a]? with
    | none => rw [hx] at he; cases he
    | some y => rw [hx] at he; cases he; rfl
  rw [hb', he', Option.getD_some, Option.getD_some]
  omega
end
end Cost

theorem lens_le_length {F : Type} {l : Nat} {es : List (Entry F)} (c : Entry F → Bool)
    (h : ∀ j, j < l → ∃ e ∈ es, c e = true ∧ e.len = j + 1) : l ≤ (nodesWhere c es).length := by
  rw [nodesWhere_length]
  have hnd : ((List.range l).map (· + 1)).Nodup := List.Nodup.map (fun a b h => by simpa using h) List.nodup_range
  have hsub : (List.range l).map (· + 1) ⊆ (es.filter c).map (·.len) := by
    intro x hx
    obtain ⟨j, hj, rfl⟩ := List.mem_map.1 hx
    obtain ⟨e, he, hc, hl⟩ := h j (List.mem_range.1 hj)
    exact List.mem_map.2 ⟨e, List.mem_filter.2 ⟨he, hc⟩, hl⟩
  have := (hnd.subperm hsub).length_le
  simpa using this

theorem sum_ge {f : Nat → Nat} {a b c : Nat} (h : ∀ q, a ≤ q → q < b → c ≤ f q) :
    ∀ m, c * (min m b - a) ≤ ((List.range m).map f).sum := by
  intro m
  induction m with
  | zero => simp
  | succ m ih =>
    rw [List.range_succ, List.map_append, List.sum_append]
    simp only [List.map_cons, List.map_nil, List.sum_cons, List.sum_nil, Nat.add_zero]
    by_cases hm : a ≤ m ∧ m < b
    · have h1 := h m hm.1 hm.2
      have e : min (m + 1) b - a = (min m b - a) + 1 := by omega
      rw [e, Nat.mul_succ]
      omega
    · have e : min (m + 1) b - a = min m b - a := by omega
      rw [e]
      omega

/-- **C120** The square is really there: with the tokens "a", "aa", … up to `w` letters and a sentence of `n` letters "a",
`populate_marginal` takes at least `w^2 * (n - 2 * w)` steps. -/
theorem C120_square (score : ℝ) (w n : Nat) (hw : 0 < w) (p p' : VecPool) (l l₀ l₁ : Lattice ℝ) (hist : History p l)
    (hfrom : l.from_ (List.replicate n 97) p = .ok (l₀, p')) (rnd : Nat → ℝ) (k : Nat)
    (hpop : (Model.from_ (repeats score w)).populateNodes l₀ 0 rnd = .ok (l₁, k)) (expected : List ℝ) :
    w ^ 2 * (n - 2 * w) ≤ (Cost.populateMarginal l₁ expected).2 := by
  have hl0 : l₀ = latticeOf (List.replicate n 97) [] := by
    obtain ⟨_, h1, _⟩ := from_clean l (List.replicate n 97) (history_clean hist)
    rw [hfrom] at h1
    simp only [Except.ok.injEq, Prod.mk.injEq] at h1
    exact h1.1
  subst hl0
  obtain ⟨es, k', h1, h2, h3, h4, h5⟩ := C33_populate (repeats score w) (List.replicate n 97) 0 rnd
  rw [h1] at hpop
  simp only [Except.ok.injEq, Prod.mk.injEq] at hpop
  obtain ⟨rfl, rfl⟩ := hpop
  have hmem : ∀ i, i < w → ∃ t ∈ repeats score w, t.value = List.replicate (i + 1) 97 := by
    intro i hi
    exact ⟨⟨List.replicate (i + 1) 97, score, false⟩, List.mem_map.2 ⟨i, List.mem_range.2 hi, rfl⟩, rfl⟩
  have hall : ∀ q j, j < w → q + (j + 1) ≤ n → ∃ e ∈ es, e.pos = q ∧ e.len = j + 1 := by
    intro q j hj hq
    obtain ⟨id, hid⟩ := ((Model.wf_from (repeats score w)).isSome_iff (List.replicate (j + 1) 97)).2 (hmem j hj)
    have hlast := ((Model.wf_from (repeats score w)).ids _ _).1 hid
    obtain ⟨t, ht, hv⟩ := hlast.1
    refine ⟨⟨q, id, j + 1, t.score⟩, h5 (by simp [ScoreOps.lt, ScoreOps.zero]) _ ⟨by simp, by simpa using hq, ?_, t, ht, rfl⟩, rfl, rfl⟩
    have e : ((List.replicate n (97 : UInt8)).drop q).take (j + 1) = List.replicate (j + 1) 97 := by
      rw [List.drop_replicate, List.take_replicate]
      congr 1
      omega
    rw [e]
    exact hlast
  have hbc : BytesCovered (repeats score w) (List.replicate n 97) := by
    intro b hb
    rw [List.eq_of_mem_replicate hb]
    exact hmem 0 hw
  obtain ⟨hin, hgaps, _, _⟩ := noGaps_of_bytes hbc h2 h4
  obtain ⟨alpha, A, ha1, _⟩ := forwardTable_spec hin hgaps
  refine le_trans ?_ (Cost.andThen_ge _ _)
  refine le_trans ?_ (Cost.forwardTable_ge ha1)
  have hb : ∀ q, w ≤ q → q + w ≤ n → w * w ≤
      ((latticeOf (List.replicate n 97) es).beginNodes[q]?.getD []).length *
        ((latticeOf (List.replicate n 97) es).endNodes[q]?.getD []).length := by
    intro q hq1 hq2
    have e1 : (latticeOf (List.replicate n 97) es).beginNodes[q]?.getD [] =
        (if q = (List.replicate n (97 : UInt8)).length then [1] else []) ++ nodesWhere (fun e => e.pos == q) es := by
      show ((List.range ((List.replicate n (97 : UInt8)).length + 1)).map _)[q]?.getD [] = _
      rw [List.getElem?_map, List.getElem?_range (by simp; omega)]
      rfl
    have e2 : (latticeOf (List.replicate n 97) es).endNodes[q]?.getD [] =
        (if q = 0 then [0] else []) ++ nodesWhere (fun e => e.pos + e.len == q) es := by
      show ((List.range ((List.replicate n (97 : UInt8)).length + 1)).map _)[q]?.getD [] = _
      rw [List.getElem?_map, List.getElem?_range (by simp; omega)]
      rfl
    rw [e1, e2, List.length_append, List.length_append]
    refine Nat.mul_le_mul ?_ ?_
    · refine le_trans (lens_le_length _ fun j hj => ?_) (Nat.le_add_left _ _)
      obtain ⟨e, he, h6, h7⟩ := hall q j hj (by omega)
      exact ⟨e, he, by simpa using h6, h7⟩
    · refine le_trans (lens_le_length _ fun j hj => ?_) (Nat.le_add_left _ _)
      obtain ⟨e, he, h6, h7⟩ := hall (q - (j + 1)) j hj (by omega)
      exact ⟨e, he, by simp only [beq_iff_eq]; omega, h7⟩
  change _ ≤ ((List.range ((List.replicate n (97 : UInt8)).length + 1)).map _).sum
  rw [List.length_replicate]
  generalize hf : (fun q : Nat => ((latticeOf (List.replicate n 97) es).beginNodes[q]?.getD []).length *
        ((latticeOf (List.replicate n 97) es).endNodes[q]?.getD []).length) = f
  replace hb : ∀ q, w ≤ q → q < n - w + 1 → w * w ≤ f q := by
    intro q h6 h7
    rw [← hf]
    by_cases hwn : w ≤ n
    · exact hb q h6 (by omega)
    · omega
  have key := sum_ge hb (n + 1)
  have e : w ^ 2 * (n - 2 * w) ≤ w * w * (min (n + 1) (n - w + 1) - w) := by
    rw [Nat.pow_two]
    exact Nat.mul_le_mul_left _ (by omega)
  omega


/-- Non-vacuity: a new lattice can be given any sentence, the vocabulary has no longer tokens, and populating succeeds. -/
example (rnd : Nat → ℝ) : ∃ p' l₀ l₁ k, History (VecPool.withCapacity 3) (Lattice.new : Lattice ℝ) ∧
    (Lattice.new : Lattice ℝ).from_ (List.replicate 100 97) (VecPool.withCapacity 3) = .ok (l₀, p') ∧
    (∀ t ∈ repeats (-1 : ℝ) 5, t.value.length ≤ 5) ∧
    (Model.from_ (repeats (-1 : ℝ) 5)).populateNodes l₀ 0 rnd = .ok (l₁, k) := by
  obtain ⟨⟨p', h1, _⟩, _⟩ := C32_reuse _ _ (History.start (F := ℝ) 3) (List.replicate 100 97)
  obtain ⟨es, k, h2, _⟩ := C33_populate (repeats (-1 : ℝ) 5) (List.replicate 100 97) 0 rnd
  refine ⟨p', _, _, k, .start 3, h1, ?_, h2⟩
  intro t ht
  obtain ⟨i, hi, rfl⟩ := List.mem_map.1 ht
  have := List.mem_range.1 hi
  simp only [List.length_replicate]
  omega

end Tokengeex

import Verif.Proofs.NBest3
import Verif.Props.BinaryHeap
import Verif.Props.Float64
/-
What `nbest` guarantees for numbers of any kind, and what rounding spoils (C35, C82).
-/
namespace Tokengeex
open Spec ScoreOps Tokengeex.Lattice

variable {F : Type} [ScoreOps F]

/-- **C35** (completeness, any number type) `nbest(n)` for `n ≥ 2` returns `n` segmentations or all there are: if one is not
returned, `n` others are.  Nothing is assumed about the scores, which may be rounded, infinite or NaN, nor about the order in
which the priority queue returns its elements.  As for optimality, the agenda limit does not matter if `n ≤ 512` and no token
starts where none stops, nor if the lattice has at most 100 000 endings. -/
theorem C35_complete (heap : Heap F) (ok : List (Hypo F) → Prop) (hheap : HeapLaws heap ok)
    (p p' : VecPool) (l l₀ l₁ : Lattice F) (hist : History p l) (sentence : List UInt8) (es : List (Entry F))
    (hfrom : l.from_ sentence p = .ok (l₀, p')) (hes : Inside sentence.length es)
    (hins : es.foldlM (fun l e => Lattice.insert l e.pos e.id e.len e.score) l₀ = .ok l₁)
    (hid : ∀ e ∈ es, e.id ≠ 4294967294) (hnd : es.Nodup) (n : Nat) (hn : 2 ≤ n)
    (hcap : (n ≤ 512 ∧ NoGaps sentence.length es) ∨ FewEndings sentence.length es 100000) :
    ∃ l' results paths fuel₀, (∀ fuel, fuel₀ ≤ fuel → l₁.nbest heap n fuel = .ok (l', results)) ∧
      AreResults results paths ∧ paths.Nodup ∧ (∀ q ∈ paths, PathOf sentence.length es q) ∧ paths.length ≤ n ∧
      (∀ other, PathOf sentence.length es other → other ∉ paths → paths.length = n) := by
  have hl := history_latticeOf hist hfrom hes hins
  subst hl
  have gr := graph_lattice hes
  obtain ⟨⟨l', path⟩, hv⟩ := viterbi_total hes
  obtain ⟨hs, he, hb⟩ := viterbi_same hv
  obtain ⟨g, hnodes⟩ := ngraph_lattice hes hid hs he hb
  obtain ⟨ho, hperm⟩ := hheap.push (h := { node := 1, next := [], fx := zero, gx := zero }) hheap.nil
  obtain ⟨found, m, h1, h2, h3⟩ := loop_complete (n := n) hheap g (by omega)
    (by
      rcases hcap with ⟨h, hg⟩ | h
      · exact .inl ⟨h, fun p r hr => (connected_iff hes).2 hg p (gr.begin_le hr) (List.ne_nil_of_mem hr)⟩
      · exact .inr (few_endings gr hnd h))
    ho hperm rfl rfl
  obtain ⟨q1, q2, q3, q4⟩ := paths_of_found hes hnd h1 (fun i hi => (hnodes i hi).2)
  refine ⟨l', _, _, m + 1, ?_, q1, q2, q3, q4, ?_⟩
  · intro fuel hf
    rw [nbest_eq _ _ _ _ hn, show idx (latticeOf sentence es).nodes 1 = .ok (LNode.new sentence.length 4294967295 0 zero) from rfl]
    simp only [res_bind_ok]
    rw [hv]
    simp only [res_bind_ok]
    rw [show (LNode.new sentence.length 4294967295 0 (zero : F)).score = zero from rfl, h3 fuel (by omega)]
    simp only [res_bind_ok]
    rw [mapM_mapM_idx (fun i hi => (hnodes i hi).1) found
      (fun f hf => (vkey_gpath gr (h1.fvalid f hf)).lt gr)]
    rfl
  · intro other ho hno
    obtain ⟨ks', h5, h6, h7⟩ := entries_gpath (n := sentence.length) other sentence.length ho.1 ho.2
    have hks : toPath es ks' = other := by
      have := (toPath_spec h5).1
      rw [h6] at this
      exact ((List.map_inj_right (fun x y h => Option.some.inj h)).1 this).symm
    rcases h2 (fkey ks') (gpath_vkey gr h5) rfl with ⟨f, hf, e⟩ | h8
    · have : f = ks' := by
        unfold fkey at e
        simpa using e
      subst this
      exact absurd (List.mem_map.2 ⟨f, hf, hks⟩) hno
    · simpa using h8

/-- **C82** `nbest` with its actual agenda and doubles: `n` segmentations or all there are. -/
theorem C82_complete
    (p p' : VecPool) (l l₀ l₁ : Lattice F) (hist : History p l) (sentence : List UInt8) (es : List (Entry F))
    (hfrom : l.from_ sentence p = .ok (l₀, p')) (hes : Inside sentence.length es)
    (hins : es.foldlM (fun l e => Lattice.insert l e.pos e.id e.len e.score) l₀ = .ok l₁)
    (hid : ∀ e ∈ es, e.id ≠ 4294967294) (hnd : es.Nodup) (n : Nat) (hn : 2 ≤ n)
    (hcap : (n ≤ 512 ∧ NoGaps sentence.length es) ∨ FewEndings sentence.length es 100000) :
    ∃ l' results paths fuel₀, (∀ fuel, fuel₀ ≤ fuel → l₁.nbest (agendaHeap F) n fuel = .ok (l', results)) ∧
      AreResults results paths ∧ paths.Nodup ∧ (∀ q ∈ paths, PathOf sentence.length es q) ∧ paths.length ≤ n ∧
      (∀ other, PathOf sentence.length es other → other ∉ paths → paths.length = n) :=
  C35_complete _ _ agenda_laws p p' l l₀ l₁ hist sentence es hfrom hes hins hid hnd n hn hcap

/-! ### Rounding -/

/-- A double with an integer value. -/
def Spec.wholeDouble (i : Int) : F64 := .num (decide (i < 0)) (i.natAbs * 2 ^ 1074)

/-- Tokens of `"abcde"`: `a` and `ab` score -2^53, `b`, `c`, `d` and `e` score -1, and `bcde` and `cde` score -2. -/
def Spec.roundingEntries : List (Entry F64) :=
  [⟨0, 0, 1, wholeDouble (-2 ^ 53)⟩, ⟨1, 1, 1, wholeDouble (-1)⟩, ⟨2, 2, 1, wholeDouble (-1)⟩, ⟨3, 3, 1, wholeDouble (-1)⟩,
    ⟨4, 4, 1, wholeDouble (-1)⟩, ⟨1, 5, 4, wholeDouble (-2)⟩, ⟨0, 6, 2, wholeDouble (-2 ^ 53)⟩, ⟨2, 7, 3, wholeDouble (-2)⟩]

/-- **C35** (what does not hold) With doubles, optimality is only up to rounding, even if all scores are finite and not
positive: `nbest` sums from the end of the sentence, `viterbi` and `encode` from its beginning.  Here the best of three
segmentations, which is the one `nbest(1)` returns, is not among the two of `nbest(2)`. -/
theorem C35_rounding_false : ¬ ∀ (p p' : VecPool) (l l₀ l₁ : Lattice F64), History p l →
    ∀ (sentence : List UInt8) (es : List (Entry F64)), l.from_ sentence p = .ok (l₀, p') → Inside sentence.length es →
    es.foldlM (fun l e => Lattice.insert l e.pos e.id e.len e.score) l₀ = .ok l₁ →
    (∀ e ∈ es, e.id ≠ 4294967294) → es.Nodup → NoGaps sentence.length es →
    (∀ e ∈ es, Finite e.score ∧ NonPositive e.score) →
    ∀ (n : Nat), 2 ≤ n → n ≤ 512 → ∀ (fuel : Nat) (l' : Lattice F64) (results : List (List (LNode F64)))
      (paths : List (List (Entry F64))), l₁.nbest (agendaHeap F64) n fuel = .ok (l', results) → AreResults results paths →
    ∀ (other : List (Entry F64)), PathOf sentence.length es other → other ∉ paths →
      ∃ q ∈ paths, lt (entriesScore q) (entriesScore other) = false := by
  intro h
  have h0 : History (VecPool.withCapacity 0) (Lattice.new : Lattice F64) := .start 0
  obtain ⟨p', hfrom, _⟩ := from_clean (Lattice.new : Lattice F64) [97, 98, 99, 100, 101] (history_clean h0)
  have hin : Inside 5 roundingEntries := by unfold Inside roundingEntries; decide +kernel
  obtain ⟨⟨l', results⟩, hr⟩ : ∃ r, (latticeOf [97, 98, 99, 100, 101] roundingEntries).nbest (agendaHeap F64) 2 100 = .ok r := by
    cases e : (latticeOf [97, 98, 99, 100, 101] roundingEntries).nbest (agendaHeap F64) 2 100 with
    | ok r => exact ⟨r, rfl⟩
    | error x =>
      have : ((latticeOf [97, 98, 99, 100, 101] roundingEntries).nbest (agendaHeap F64) 2 100).isOk = true := by decide +kernel
      rw [e] at this; cases this
  have hres : results.map (fun r => r.map nodeEntry) =
      [[⟨0, 6, 2, wholeDouble (-2 ^ 53)⟩, ⟨2, 7, 3, wholeDouble (-2)⟩],
        [⟨0, 0, 1, wholeDouble (-2 ^ 53)⟩, ⟨1, 5, 4, wholeDouble (-2)⟩]] := by
    have : (((latticeOf [97, 98, 99, 100, 101] roundingEntries).nbest (agendaHeap F64) 2 100).toOption.map
        fun r => decide (r.2.map (fun r => r.map nodeEntry) =
          [[⟨0, 6, 2, wholeDouble (-2 ^ 53)⟩, ⟨2, 7, 3, wholeDouble (-2)⟩],
            [⟨0, 0, 1, wholeDouble (-2 ^ 53)⟩, ⟨1, 5, 4, wholeDouble (-2)⟩]])) = some true := by decide +kernel
    rw [hr] at this
    simpa [Except.toOption] using this
  obtain ⟨q, hq, hlt⟩ := h _ _ _ _ _ h0 [97, 98, 99, 100, 101] roundingEntries hfrom hin
    (insertAll [97, 98, 99, 100, 101] roundingEntries hin)
    (by unfold roundingEntries; decide +kernel) (by unfold roundingEntries; decide +kernel)
    (by
      intro p hp
      simp only [roundingEntries, List.length_cons, List.length_nil, List.mem_cons, List.not_mem_nil, or_false,
        exists_eq_or_imp, exists_eq_left] at hp ⊢
      omega)
    (by
      have h1 : Finite (wholeDouble (-1)) ∧ NonPositive (wholeDouble (-1)) :=
        ⟨⟨1, 1074, by decide, by omega, by decide +kernel⟩, by unfold NonPositive; decide +kernel⟩
      have h2 : Finite (wholeDouble (-2)) ∧ NonPositive (wholeDouble (-2)) :=
        ⟨⟨2, 1074, by decide, by omega, by decide +kernel⟩, by unfold NonPositive; decide +kernel⟩
      have h3 : Finite (wholeDouble (-2 ^ 53)) ∧ NonPositive (wholeDouble (-2 ^ 53)) :=
        ⟨⟨1, 1127, by decide, by omega, by decide +kernel⟩, by unfold NonPositive; decide +kernel⟩
      intro e he
      simp only [roundingEntries, List.mem_cons, List.not_mem_nil, or_false] at he
      rcases he with rfl | rfl | rfl | rfl | rfl | rfl | rfl | rfl
      exacts [h3, h1, h1, h1, h1, h2, h3, h2])
    2 (by omega) (by omega) 100 l' results _ hr hres (roundingEntries.take 5)
    ⟨fun e he => List.mem_of_mem_take he, by simp [roundingEntries, Contiguous]⟩ (by decide +kernel)
  simp only [List.mem_cons, List.not_mem_nil, or_false] at hq
  have h1 : lt (entriesScore [⟨0, 0, 1, wholeDouble (-2 ^ 53)⟩, ⟨1, 5, 4, wholeDouble (-2)⟩])
      (entriesScore (roundingEntries.take 5)) = true := by decide +kernel
  have h2 : lt (entriesScore [⟨0, 6, 2, wholeDouble (-2 ^ 53)⟩, ⟨2, 7, 3, wholeDouble (-2)⟩])
      (entriesScore (roundingEntries.take 5)) = true := by decide +kernel
  rcases hq with rfl | rfl
  · rw [h2] at hlt; cases hlt
  · rw [h1] at hlt; cases hlt

/-! ### Non-vacuity -/

/-- NaN scores: all three segmentations are returned. -/
example : (((latticeOf [97, 98, 97] [(⟨0, 3, 1, .nan⟩ : Entry F64), ⟨0, 2, 2, .nan⟩, ⟨1, 1, 1, .inf false⟩, ⟨1, 0, 2, .inf true⟩,
    ⟨2, 3, 1, .nan⟩]).nbest (agendaHeap F64) 5 100).toOption.map (fun r => r.2.length)) = some 3 := by decide +kernel

/-- With a gap (no token stops at byte 1) the two segmentations without the stranded token are still found. -/
example : (((latticeOf [97, 98, 97] [(⟨1, 9, 2, wholeDouble 0⟩ : Entry F64), ⟨0, 1, 3, wholeDouble 0⟩, ⟨0, 2, 2, wholeDouble 0⟩,
    ⟨2, 3, 1, wholeDouble 0⟩]).nbest (agendaHeap F64) 5 100).toOption.map (fun r => r.2.length)) = some 2 := by decide +kernel

end Tokengeex

import Verif.Proofs.NBest2
import Verif.Props.Lattice
/-
Properties of `nbest` (C35).
-/
namespace Tokengeex
open Spec ScoreOps Tokengeex.Lattice

variable {F : Type} [ScoreOps F]

theorem history_latticeOf {p p' : VecPool} {l l₀ l₁ : Lattice F} (hist : History p l) {sentence : List UInt8}
    {es : List (Entry F)} (hfrom : l.from_ sentence p = .ok (l₀, p')) (hes : Inside sentence.length es)
    (hins : es.foldlM (fun l e => Lattice.insert l e.pos e.id e.len e.score) l₀ = .ok l₁) : l₁ = latticeOf sentence es := by
  have hl0 : l₀ = latticeOf sentence [] := by
    obtain ⟨_, h1, _⟩ := from_clean l sentence (history_clean hist)
    rw [hfrom] at h1
    simp only [Except.ok.injEq, Prod.mk.injEq] at h1
    exact h1.1
  subst hl0
  rw [insertAll sentence es hes] at hins
  simp only [Except.ok.injEq] at hins
  exact hins.symm

theorem nbest_eq (heap : Heap F) (l : Lattice F) (n fuel : Nat) (hn : 2 ≤ n) :
    l.nbest heap n fuel = (do
      let eos ← idx l.nodes 1
      let r ← l.viterbi
      let found ← nbestLoop heap r.1 n fuel (heap.push [] { node := 1, next := [], fx := eos.score, gx := eos.score }) []
      let results ← found.mapM (fun indices => indices.mapM (idx r.1.nodes))
      pure (r.1, results)) := by
  obtain ⟨m, rfl⟩ : ∃ m, n = m + 2 := ⟨n - 2, by omega⟩
  rfl

theorem paths_of_found {sentence : List UInt8} {es : List (Entry F)} (hes : Inside sentence.length es)
    (hnd : es.Nodup) {n : Nat} {found : List (List Nat)}
    (h : Post1 (lBegins sentence.length es) (lEnds es) n found) {node : Nat → LNode F}
    (hn : ∀ i, i < es.length + 2 → entryAt sentence.length es i = some (nodeEntry (node i))) :
    AreResults (found.map (fun ks => ks.map node)) (found.map (toPath es)) ∧ (found.map (toPath es)).Nodup ∧
      (∀ q ∈ found.map (toPath es), PathOf sentence.length es q) ∧ (found.map (toPath es)).length ≤ n := by
  have g := graph_lattice hes
  have hg : ∀ f ∈ found, GPath (lBegins sentence.length es) (lEnds es) sentence.length f :=
    fun f hf => vkey_gpath g (h.fvalid f hf)
  refine ⟨?_, ?_, ?_, by simpa using h.le⟩
  · unfold AreResults
    rw [List.map_map]
    apply List.map_congr_left
    intro f hf
    obtain ⟨h1, h2, _⟩ := toPath_spec (hg f hf)
    exact entries_of_nodes hn h1 h2
  · unfold List.Nodup
    rw [List.pairwise_map]
    refine List.Pairwise.imp_of_mem ?_ h.nodup
    intro a b ha hb hab e
    obtain ⟨h1, h2, _⟩ := toPath_spec (hg a ha)
    obtain ⟨h3, h4, _⟩ := toPath_spec (hg b hb)
    rw [e] at h1
    exact hab (nodes_inj hnd h1 h3 h2 h4)
  · intro q hq
    obtain ⟨f, hf, rfl⟩ := List.mem_map.1 hq
    obtain ⟨_, _, h3, h4, _⟩ := toPath_spec (hg f hf)
    exact ⟨h3, h4⟩

/-- **C35** (soundness, any number type) `nbest(n)` for `n ≥ 2` on any lattice: it ends, without a panic, and returns at
most `n` pairwise different segmentations of the sentence by inserted tokens.  Nothing is assumed about the scores, about
gaps, or about the order in which the priority queue returns its elements. -/
theorem C35_sound (heap : Heap F) (ok : List (Hypo F) → Prop) (hheap : HeapLaws heap ok)
    (p p' : VecPool) (l l₀ l₁ : Lattice F) (hist : History p l) (sentence : List UInt8) (es : List (Entry F))
    (hfrom : l.from_ sentence p = .ok (l₀, p')) (hes : Inside sentence.length es)
    (hins : es.foldlM (fun l e => Lattice.insert l e.pos e.id e.len e.score) l₀ = .ok l₁)
    (hid : ∀ e ∈ es, e.id ≠ 4294967294) (hnd : es.Nodup) (n : Nat) (hn : 2 ≤ n) :
    ∃ l' results paths fuel₀, (∀ fuel, fuel₀ ≤ fuel → l₁.nbest heap n fuel = .ok (l', results)) ∧
      AreResults results paths ∧ paths.Nodup ∧ (∀ q ∈ paths, PathOf sentence.length es q) ∧ paths.length ≤ n := by
  have hl := history_latticeOf hist hfrom hes hins
  subst hl
  obtain ⟨⟨l', path⟩, hv⟩ := viterbi_total hes
  obtain ⟨hs, he, hb⟩ := viterbi_same hv
  obtain ⟨g, hnodes⟩ := ngraph_lattice hes hid hs he hb
  obtain ⟨ho, hperm⟩ := hheap.push (h := { node := 1, next := [], fx := zero, gx := zero }) hheap.nil
  obtain ⟨found, m, h1, h2⟩ := loop_sound (n := n) hheap g (by omega) ho hperm rfl rfl
  obtain ⟨q1, q2, q3, q4⟩ := paths_of_found hes hnd h1 (fun i hi => (hnodes i hi).2)
  refine ⟨l', _, _, m + 1, ?_, q1, q2, q3, q4⟩
  intro fuel hf
  rw [nbest_eq _ _ _ _ hn, show idx (latticeOf sentence es).nodes 1 = .ok (LNode.new sentence.length 4294967295 0 zero) from rfl]
  simp only [res_bind_ok]
  rw [hv]
  simp only [res_bind_ok]
  rw [show (LNode.new sentence.length 4294967295 0 (zero : F)).score = zero from rfl, h2 fuel (by omega)]
  simp only [res_bind_ok]
  rw [mapM_mapM_idx (fun i hi => (hnodes i hi).1) found
    (fun f hf => (vkey_gpath (graph_lattice hes) (h1.fvalid f hf)).lt (graph_lattice hes))]
  rfl

/-- **C35** (optimality, exact arithmetic) If no token starts where none stops, the segmentations `nbest(n)` returns are
in the order of their scores, highest first; a segmentation that is not returned scores no more than any returned one;
and if fewer than `n` are returned, there are no others.  The agenda limit (100 000 hypotheses, cut to at most 512) does
not matter if `n ≤ 512`, nor if the lattice has at most 100 000 endings. -/
theorem C35_nbest (R : ExactArith F) (heap : Heap F) (ok : List (Hypo F) → Prop) (hheap : HeapLaws heap ok)
    (hmax : HeapMax heap ok)
    (p p' : VecPool) (l l₀ l₁ : Lattice F) (hist : History p l) (sentence : List UInt8) (es : List (Entry F))
    (hfrom : l.from_ sentence p = .ok (l₀, p')) (hes : Inside sentence.length es)
    (hins : es.foldlM (fun l e => Lattice.insert l e.pos e.id e.len e.score) l₀ = .ok l₁)
    (hid : ∀ e ∈ es, e.id ≠ 4294967294) (hnd : es.Nodup) (hgaps : NoGaps sentence.length es) (n : Nat) (hn : 2 ≤ n)
    (hcap : n ≤ 512 ∨ FewEndings sentence.length es 100000) :
    ∃ l' results paths fuel₀, (∀ fuel, fuel₀ ≤ fuel → l₁.nbest heap n fuel = .ok (l', results)) ∧
      AreResults results paths ∧ paths.Nodup ∧ (∀ q ∈ paths, PathOf sentence.length es q) ∧ paths.length ≤ n ∧
      NonIncreasing paths ∧
      (∀ other, PathOf sentence.length es other → other ∉ paths →
        paths.length = n ∧ ∀ q ∈ paths, lt (entriesScore q) (entriesScore other) = false) := by
  have hl := history_latticeOf hist hfrom hes hins
  subst hl
  have gr := graph_lattice hes
  obtain ⟨l', path, hv, hfill⟩ : ∃ l' path, (latticeOf sentence es).viterbi = .ok (l', path) ∧
      Filled (latticeOf sentence es).nodes l'.nodes
        (vFinal sentence.length (lBegins sentence.length es) (lEnds es) (lScore es)) := by
    obtain ⟨nodes, ks, hv, hfill, _⟩ := viterbi_spec hes ((connected_iff hes).2 hgaps)
    exact ⟨_, _, hv, hfill⟩
  obtain ⟨hs, he, hb⟩ := viterbi_same hv
  obtain ⟨g, hnodes⟩ := ngraph_lattice hes hid hs he hb
  obtain ⟨ho, hperm⟩ := hheap.push (h := { node := 1, next := [], fx := zero, gx := zero }) hheap.nil
  have hbt : ∀ i, i < es.length + 2 → (l'.nodes.getD i (LNode.new 0 0 0 zero)).backtrack =
      (vFinal sentence.length (lBegins sentence.length es) (lEnds es) (lScore es) i).2 ∧
      (l'.nodes.getD i (LNode.new 0 0 0 zero)).score = lScore es i := by
    intro i hi
    have h1 := hfill i
    have h2 := (hnodes i hi).1
    rw [h2] at h1
    cases hx : (latticeOf sentence es).nodes[i]? with
    | none => rw [hx] at h1; simp at h1
    | some x =>
      rw [hx] at h1
      simp only [Option.map_some, Option.some.injEq] at h1
      rw [h1]
      exact ⟨rfl, (latticeOf_score sentence es i x hx).1⟩
  obtain ⟨found, m, h1, h2, h3⟩ := loop_best (n := n) hheap hmax g (by omega) (exact_viterbi R hes hgaps)
    (fun i hi => (hbt i hi).1) (fun i hi => (hbt i hi).2)
    (by
      rcases hcap with h | h
      · exact .inl h
      · exact .inr (few_endings gr hnd h))
    ho hperm rfl rfl rfl
  obtain ⟨q1, q2, q3, q4⟩ := paths_of_found hes hnd h1 (fun i hi => (hnodes i hi).2)
  have hg : ∀ f ∈ found, GPath (lBegins sentence.length es) (lEnds es) sentence.length f :=
    fun f hf => vkey_gpath gr (h1.fvalid f hf)
  have hsc : ∀ f, GPath (lBegins sentence.length es) (lEnds es) sentence.length f →
      sumW R (lScore es) (fkey f) = R.val (entriesScore (toPath es f)) := by
    intro f hf
    rw [sumW_score R _ R.zero R.zero, (toPath_spec hf).2.2.2.2]
  have hlt : ∀ a b : F, R.val b ≤ R.val a → lt a b = false := by
    intro a b hab
    cases h : lt a b with
    | false => rfl
    | true => have := (R.lt a b).1 h; exact absurd hab (not_le.2 this)
  refine ⟨l', _, _, m + 1, ?_, q1, q2, q3, q4, ?_, ?_⟩
  · intro fuel hf
    rw [nbest_eq _ _ _ _ hn, show idx (latticeOf sentence es).nodes 1 = .ok (LNode.new sentence.length 4294967295 0 zero) from rfl]
    simp only [res_bind_ok]
    rw [hv]
    simp only [res_bind_ok]
    rw [show (LNode.new sentence.length 4294967295 0 (zero : F)).score = zero from rfl, h3 fuel (by omega)]
    simp only [res_bind_ok]
    rw [mapM_mapM_idx (fun i hi => (hnodes i hi).1) found (fun f hf => (hg f hf).lt gr)]
    rfl
  · unfold NonIncreasing
    rw [List.pairwise_map]
    refine List.Pairwise.imp_of_mem ?_ h2.ord
    intro a b ha hb hab
    rw [hsc a (hg a ha), hsc b (hg b hb)] at hab
    exact hlt _ _ hab
  · intro other ho hno
    obtain ⟨ks', h5, h6, h7⟩ := entries_gpath (n := sentence.length) other sentence.length ho.1 ho.2
    have hks : toPath es ks' = other := by
      have := (toPath_spec h5).1
      rw [h6] at this
      exact ((List.map_inj_right (fun x y h => Option.some.inj h)).1 this).symm
    rcases h2.best (fkey ks') (gpath_vkey gr h5) rfl with ⟨f, hf, e⟩ | ⟨h8, h9⟩
    · have : f = ks' := by
        unfold fkey at e
        simpa using e
      subst this
      exact absurd (List.mem_map.2 ⟨f, hf, hks⟩) hno
    · refine ⟨by simpa using h8, ?_⟩
      intro q hq
      obtain ⟨f, hf, rfl⟩ := List.mem_map.1 hq
      have := h9 f hf
      rw [hsc f (hg f hf), hsc ks' h5, hks] at this
      exact hlt _ _ this

/-- **C35** `nbest(0)` is empty and `nbest(1)` is the path of `viterbi`. -/
theorem C35_small (heap : Heap F) (l : Lattice F) (fuel : Nat) :
    l.nbest heap 0 fuel = .ok (l, []) ∧
    l.nbest heap 1 fuel = (l.viterbi).map (fun r => (r.1, [r.2])) := by
  refine ⟨rfl, ?_⟩
  show (l.viterbi >>= fun r => pure (r.1, [r.2])) = _
  cases l.viterbi <;> rfl

/-! ### Non-vacuity -/

/-- A queue meeting the assumptions: a list searched for its first maximum. -/
def scanHeap : Heap Int where
  push l h := l ++ [h]
  pop l := match l with
    | [] => none
    | h :: t =>
      let best := t.foldl (fun b x => if b.fx < x.fx then x else b) h
      some (best, l.erase best)

theorem scan_best (t : List (Hypo Int)) (h : Hypo Int) :
    let b := t.foldl (fun b x => if b.fx < x.fx then x else b) h
    b ∈ h :: t ∧ ∀ x ∈ h :: t, x.fx ≤ b.fx := by
  induction t generalizing h with
  | nil => simp
  | cons y t ih =>
    simp only [List.foldl_cons]
    obtain ⟨h1, h2⟩ := ih (if h.fx < y.fx then y else h)
    refine ⟨?_, ?_⟩
    · rcases List.mem_cons.1 h1 with e | e
      · rw [e]; split <;> simp
      · simp [e]
    · have h3 := h2 _ List.mem_cons_self
      intro x hx
      rcases List.mem_cons.1 hx with rfl | hx
      · by_cases hc : x.fx < y.fx
        · rw [if_pos hc] at h3 ⊢; omega
        · rw [if_neg hc] at h3 ⊢; exact h3
      · rcases List.mem_cons.1 hx with rfl | hx
        · by_cases hc : h.fx < x.fx
          · rw [if_pos hc] at h3 ⊢; exact h3
          · rw [if_neg hc] at h3 ⊢; omega
        · exact h2 x (by simp [hx])

theorem scan_laws : HeapLaws scanHeap (fun _ => True) ∧ HeapMax scanHeap (fun _ => True) := by
  refine ⟨⟨trivial, ?_, ?_, ?_⟩, ?_⟩
  · intro l h _
    exact ⟨trivial, List.perm_append_singleton _ _⟩
  · intro l _ h
    cases l with
    | nil => rfl
    | cons x l => simp [scanHeap] at h
  · intro l h l' _ hp
    cases l with
    | nil => simp [scanHeap] at hp
    | cons x l =>
      simp only [scanHeap, Option.some.injEq, Prod.mk.injEq] at hp
      have := (scan_best l x).1
      rw [hp.1] at this
      refine ⟨trivial, ?_⟩
      rw [← hp.2, hp.1]
      exact List.perm_cons_erase this
  · intro l h l' _ hp y hy
    cases l with
    | nil => simp [scanHeap] at hp
    | cons x l =>
      simp only [scanHeap, Option.some.injEq, Prod.mk.injEq] at hp
      have := (scan_best l x).2 y hy
      rw [hp.1] at this
      simp [ScoreOps.lt]; omega

/-- Integers are exact. -/
def intExact : ExactArith Int where
  val x := (x : ℝ)
  zero := by simp [ScoreOps.zero]
  add a b := by simp [ScoreOps.add]
  lt a b := by simp [ScoreOps.lt]

/-- The three segmentations of `"aba"` by four tokens, best two first. -/
example : (((latticeOf [97, 98, 97] [(⟨0, 3, 1, -1⟩ : Entry Int), ⟨0, 2, 2, -4⟩, ⟨1, 1, 1, -2⟩, ⟨1, 0, 2, -1⟩, ⟨2, 3, 1, -1⟩]).nbest
    scanHeap 2 100).toOption.map (fun r => r.2.map (fun x => x.map nodeEntry))) =
    some [[⟨0, 3, 1, -1⟩, ⟨1, 0, 2, -1⟩], [⟨0, 3, 1, -1⟩, ⟨1, 1, 1, -2⟩, ⟨2, 3, 1, -1⟩]] := by decide
example : (((latticeOf [97, 98, 97] [(⟨0, 3, 1, -1⟩ : Entry Int), ⟨0, 2, 2, -4⟩, ⟨1, 1, 1, -2⟩, ⟨1, 0, 2, -1⟩, ⟨2, 3, 1, -1⟩]).nbest
    scanHeap 5 100).toOption.map (fun r => r.2.length)) = some 3 := by decide

/-- Its hypotheses hold. -/
example : NoGaps 3 [(⟨0, 3, 1, -1⟩ : Entry Int), ⟨0, 2, 2, -4⟩, ⟨1, 1, 1, -2⟩, ⟨1, 0, 2, -1⟩, ⟨2, 3, 1, -1⟩] := by
  intro p hp
  simp at *
  omega
example : Inside 3 [(⟨0, 3, 1, -1⟩ : Entry Int), ⟨0, 2, 2, -4⟩, ⟨1, 1, 1, -2⟩, ⟨1, 0, 2, -1⟩, ⟨2, 3, 1, -1⟩] := by
  intro e he
  simp at he
  rcases he with rfl | rfl | rfl | rfl | rfl <;> simp
example : [(⟨0, 3, 1, -1⟩ : Entry Int), ⟨0, 2, 2, -4⟩, ⟨1, 1, 1, -2⟩, ⟨1, 0, 2, -1⟩, ⟨2, 3, 1, -1⟩].Nodup := by decide

end Tokengeex

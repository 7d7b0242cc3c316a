import Verif.Proofs.NBestFirst
import Verif.Props.Rounding
import Verif.Props.TrainF64
import Verif.Props.PruneF64
import Verif.Proofs.LossF64
/-
With doubles, `nbest` first returns a token that is better than every other way of cutting its bytes.
-/
namespace Tokengeex
open Spec ScoreOps Tokengeex.Lattice

/-- The table of `viterbi` holds the score of some path. -/
theorem vFinal_path {F : Type} [ScoreOps F] {n size : Nat} {begins ends : Nat → List Nat} {w : Nat → F} (g : Graph n size begins ends)
    (hc : Connected n begins ends) : ∀ (p r : Nat), r ∈ begins p →
      ∃ ks, GPath begins ends p ks ∧ (vFinal n begins ends w r).2 = add (pathScore w ks) (w r) := by
  intro p
  induction p using Nat.strongRecOn with
  | ind p ih =>
    intro r hr
    obtain ⟨l, hl, hv⟩ := vFinal_pick (w := w) g hr (hc p (g.begin_le hr) (List.ne_nil_of_mem hr))
    rw [hv]
    rcases g.ends_from hl with ⟨rfl, rfl⟩ | ⟨q, hq, hlq⟩
    · exact ⟨[], .nil, by rw [vFinal_bos g]; rfl⟩
    · obtain ⟨ks, h1, h2⟩ := ih q hq l hlq
      exact ⟨ks ++ [l], .snoc h1 hlq hl, by rw [pathScore_snoc, ← h2]⟩

namespace F64

theorem _root_.Tokengeex.Spec.Finite.total {x : F64} (h : Finite x) : Total x := by
  cases x with
  | nan => exact absurd h id
  | inf s => exact absurd h id
  | num s n => exact ⟨h, by simp⟩

theorem key_zero_add {x : F64} (h : Finite x) : (add (num false 0) x).key = x.key := by
  have ht := h.total
  cases x with
  | nan => exact absurd h id
  | inf s => exact absurd h id
  | num s n =>
    have h1 := (key_add_zero ht).1
    rw [key_add] at h1 ⊢
    rw [Int.add_comm]
    exact h1

end F64

/-- If a token is better than every other way of cutting the sentence, `nbest` returns it first. -/
theorem nbest_first {p p' : VecPool} {l l₀ l₁ : Lattice F64} (hist : History p l) {sentence : List UInt8} {es : List (Entry F64)}
    (hfrom : l.from_ sentence p = .ok (l₀, p')) (hes : Inside sentence.length es)
    (hins : es.foldlM (fun l e => Lattice.insert l e.pos e.id e.len e.score) l₀ = .ok l₁)
    (hid : ∀ e ∈ es, e.id ≠ 4294967294) (hd : es.Pairwise (fun a b => ¬ (a.pos = b.pos ∧ a.len = b.len)))
    (hgaps : NoGaps sentence.length es) {n : Nat} (hn : 2 ≤ n)
    {B : ℝ} (hB0 : 0 ≤ B) (hB : ∀ e ∈ es, Finite e.score ∧ |real e.score| ≤ B) (hlen : sentence.length ≤ 100000)
    (hbig : ((sentence.length : ℝ) + 2) * B ≤ 2 ^ 998) {e : Entry F64} (he : e ∈ es) (hpos : e.pos = 0) (hel : e.len = sentence.length)
    (hbest : ∀ other, PathOf sentence.length es other → other ≠ [e] → F64.lt (entriesScore other) e.score = true)
    {fuel₀ : Nat} {l' : Lattice F64} {results : List (List (LNode F64))}
    (h : ∀ fuel ≥ fuel₀, l₁.nbest (agendaHeap F64) n fuel = .ok (l', results)) :
    ∃ x rest, results = x :: rest ∧ x.map nodeEntry = [e] := by
  have hl := history_latticeOf hist hfrom hes hins
  subst hl
  have gr := graph_lattice hes
  have hcon := (connected_iff hes).2 hgaps
  have hnd := Pruner.entriesDistinct_nodup hd
  obtain ⟨l'', path, hv, hfill⟩ : ∃ l' path, (latticeOf sentence es).viterbi = .ok (l', path) ∧
      Filled (latticeOf sentence es).nodes l'.nodes
        (vFinal sentence.length (lBegins sentence.length es) (lEnds es) (lScore es)) := by
    obtain ⟨nodes, ks, hv, hfill, _⟩ := viterbi_spec hes hcon
    exact ⟨_, _, hv, hfill⟩
  obtain ⟨hs, hee, hb⟩ := viterbi_same hv
  obtain ⟨g, hnodes⟩ := ngraph_lattice hes hid hs hee hb
  have hbt : ∀ i, i < es.length + 2 → (l''.nodes.getD i (LNode.new 0 0 0 zero)).backtrack =
      (vFinal sentence.length (lBegins sentence.length es) (lEnds es) (lScore es) i).2 ∧
      (l''.nodes.getD i (LNode.new 0 0 0 zero)).score = lScore es i := by
    intro i hi
    have h1 := hfill i
    have h2 := (hnodes i hi).1
    rw [h2] at h1
    cases hx : (latticeOf sentence es).nodes[i]? with
    | none => rw [hx] at h1; simp at h1
    | some x =>
      rw [hx] at h1
      simp only [Option.map_some, Option.some.injEq] at h1
      rw [h1]
      exact ⟨rfl, (latticeOf_score sentence es i x hx).1⟩
  have hzero : Finite (zero : F64) ∧ |real (zero : F64)| ≤ B :=
    ⟨F64.finite_posZero, by show |real (F64.num false 0)| ≤ B; rw [F64.real_zero]; simpa using hB0⟩
  have hw : ∀ i, Finite (lScore es i) ∧ |real (lScore es i)| ≤ B := by
    intro i
    match i with
    | 0 => exact hzero
    | 1 => exact hzero
    | j + 2 =>
      cases hj : es[j]? with
      | none => simpa [lScore, hj] using hzero
      | some e => simpa [lScore, hj] using hB e (List.mem_of_getElem? hj)
  have R := room_of hB0 (show sentence.length + 2 ≤ 2 ^ 51 by omega) hbig
  generalize ((sentence.length : ℝ) + 2) * B / 2 ^ 51 = δ at R
  -- the node of the token
  obtain ⟨i, hi⟩ := List.mem_iff_getElem?.1 he
  have hil := (List.getElem?_eq_some_iff.1 hi).1
  have hj0 : i + 2 ∈ lBegins sentence.length es 0 := mem_lBegins.2 (.inr ⟨i, e, rfl, hi, hpos⟩)
  have hjn : i + 2 ∈ lEnds es sentence.length := mem_lEnds.2 (.inr ⟨i, e, rfl, hi, by omega⟩)
  have hsl : lScore es (i + 2) = e.score := by simp [lScore, hi]
  have hej : ∀ q, (∀ k ∈ lEnds es q, k < es.length + 2) := fun q k hk => gr.end_lt hk
  -- adding zero
  have hadd0 : ∀ {x : F64}, Finite x → |real x| ≤ 2 * ((sentence.length : ℝ) + 2) * (B + δ) →
      Finite (F64.add x zero) ∧ (F64.add x zero).key = x.key := by
    intro x hx hbx
    refine ⟨(R.add hx F64.finite_posZero ?_).1, (F64.key_add_zero hx.total).1⟩
    rw [F64.real_zero, add_zero]
    exact hbx
  have hB' : 0 ≤ B + δ := add_nonneg R.pos R.nonneg
  have hn0 : (0 : ℝ) ≤ sentence.length := Nat.cast_nonneg _
  have htab : ∀ {q k : Nat}, q ≤ sentence.length → k ∈ lBegins sentence.length es q →
      Finite (vFinal sentence.length (lBegins sentence.length es) (lEnds es) (lScore es) k).2 ∧
      |real (vFinal sentence.length (lBegins sentence.length es) (lEnds es) (lScore es) k).2| ≤
        2 * ((sentence.length : ℝ) + 2) * (B + δ) := by
    intro q k hq hk
    obtain ⟨h1, h2⟩ := table_bound gr hcon R hw q k hk
    refine ⟨h1, h2.trans (R.le ?_)⟩
    have : (q : ℝ) ≤ sentence.length := Nat.cast_le.2 hq
    linarith
  have hsum : ∀ x ∈ [lScore es (i + 2)], Finite x ∧ |real x| ≤ 2 * ((sentence.length : ℝ) + 2) * (B + δ) := by
    intro x hx
    rw [List.mem_singleton.1 hx]
    refine ⟨(hw _).1, (hw _).2.trans ?_⟩
    have := R.le (k := 1) (by linarith)
    have := R.nonneg
    linarith
  obtain ⟨hsf, hsb⟩ := hsum _ (List.mem_singleton.2 rfl)
  have hNpos : 0 < sentence.length := by
    have := (hes e he).1
    omega
  -- the hypotheses after the first round
  have hend : ∀ k ∈ lEnds es sentence.length, ∃ q, q < sentence.length ∧ k ∈ lBegins sentence.length es q := by
    intro k hk
    rcases gr.ends_from hk with ⟨_, h0⟩ | ⟨q, h1, h2⟩
    · omega
    · exact ⟨q, h1, h2⟩
  have key1 : ∀ k ∈ lEnds es sentence.length,
      Finite (F64.add (l''.nodes.getD k (LNode.new 0 0 0 zero)).backtrack zero) ∧
      (F64.add (l''.nodes.getD k (LNode.new 0 0 0 zero)).backtrack zero).key =
        (vFinal sentence.length (lBegins sentence.length es) (lEnds es) (lScore es) k).2.key := by
    intro k hk
    obtain ⟨q, h1, h2⟩ := hend k hk
    obtain ⟨h3, h4⟩ := htab (by omega) h2
    rw [(hbt k (hej _ k hk)).1]
    exact hadd0 h3 h4
  have key2 : (vFinal sentence.length (lBegins sentence.length es) (lEnds es) (lScore es) (i + 2)).2.key = e.score.key := by
    obtain ⟨m, hm, hv'⟩ := vFinal_pick (w := lScore es) gr hj0 (hcon 0 (Nat.zero_le _) (List.ne_nil_of_mem hj0))
    have : m = 0 := by
      rcases gr.ends_from hm with ⟨h, _⟩ | ⟨q, hq, _⟩
      · exact h
      · omega
    subst this
    rw [hv', vFinal_bos gr, hsl]
    exact F64.key_zero_add (hB e he).1
  have key3 : ∀ k ∈ lEnds es sentence.length, k ≠ i + 2 →
      (vFinal sentence.length (lBegins sentence.length es) (lEnds es) (lScore es) k).2.key < e.score.key := by
    intro k hk hne
    obtain ⟨q, h1, h2⟩ := hend k hk
    obtain ⟨ks, h3, h4⟩ := vFinal_path (w := lScore es) gr hcon q k h2
    have hg : GPath (lBegins sentence.length es) (lEnds es) sentence.length (ks ++ [k]) := .snoc h3 h2 hk
    obtain ⟨t1, t2, t3, t4, t5⟩ := toPath_spec hg
    have h5 := hbest (toPath es (ks ++ [k])) ⟨t3, t4⟩ (by
      intro e'
      rw [e'] at t1
      have h6 := nodes_inj hnd (ks := [i + 2]) (by simp [hi]) t1 (by simp) t2
      rcases ks with _ | ⟨x, ks⟩
      · simp only [List.nil_append, List.cons.injEq, and_true] at h6
        exact hne h6.symm
      · have := congrArg List.length h6
        simp at this)
    rw [← t5, pathScore_snoc, ← h4] at h5
    exact (F64.lt_true (F64.Finite.ne_nan (htab (by omega) h2).1) (F64.Finite.ne_nan (hB e he).1)).1 h5
  have key4 : Finite (F64.add (l''.nodes.getD (i + 2) (LNode.new 0 0 0 zero)).score zero) ∧
      (F64.add (l''.nodes.getD (i + 2) (LNode.new 0 0 0 zero)).score zero).key = e.score.key := by
    rw [(hbt _ (by omega)).2, ← hsl]
    exact hadd0 hsf hsb
  have key5 : Finite (F64.add (l''.nodes.getD 0 (LNode.new 0 0 0 zero)).backtrack
        (F64.add (l''.nodes.getD (i + 2) (LNode.new 0 0 0 zero)).score zero)) ∧
      (F64.add (l''.nodes.getD 0 (LNode.new 0 0 0 zero)).backtrack
        (F64.add (l''.nodes.getD (i + 2) (LNode.new 0 0 0 zero)).score zero)).key = e.score.key := by
    rw [(hbt 0 (by omega)).1, vFinal_bos gr]
    refine ⟨(R.add F64.finite_posZero key4.1 ?_).1, (F64.key_zero_add key4.1).trans key4.2⟩
    rw [F64.real_zero, zero_add, F64.real_eq key4.1, key4.2, ← F64.real_eq (hB e he).1, ← hsl]
    exact hsb
  have hfew : (lEnds es sentence.length).length ≤ maxAgenda := by
    have hnodup : ((lEnds es sentence.length).map fun k => ((es[k - 2]?).map (·.pos)).getD 0).Nodup := by
      refine List.Nodup.map_on ?_ (lEnds_nd es _)
      intro a ha b hb hab
      rcases mem_lEnds.1 ha with ⟨_, h0⟩ | ⟨x, ex, rfl, hx, hxe⟩
      · omega
      rcases mem_lEnds.1 hb with ⟨_, h0⟩ | ⟨y, ey, rfl, hy, hye⟩
      · omega
      simp only [Nat.add_sub_cancel, hx, hy, Option.map_some, Option.getD_some] at hab
      by_contra hne
      have : Std.Symm (fun a b : Entry F64 => ¬ (a.pos = b.pos ∧ a.len = b.len)) := ⟨by intro a b h; omega⟩
      refine hd.forall (List.mem_of_getElem? hx) (List.mem_of_getElem? hy) ?_ ⟨hab, by omega⟩
      rintro rfl
      have hx' := (List.getElem?_eq_some_iff.1 hx).1
      have := hnd.getElem_inj_iff (hi := hx') (hj := (List.getElem?_eq_some_iff.1 hy).1) |>.1 (by
        rw [(List.getElem?_eq_some_iff.1 hx).2, (List.getElem?_eq_some_iff.1 hy).2])
      omega
    have hsub : ∀ x ∈ ((lEnds es sentence.length).map fun k => ((es[k - 2]?).map (·.pos)).getD 0), x < sentence.length := by
      intro x hx
      obtain ⟨k, hk, rfl⟩ := List.mem_map.1 hx
      rcases mem_lEnds.1 hk with ⟨_, h0⟩ | ⟨y, ey, rfl, hy, hye⟩
      · omega
      have := (hes ey (List.mem_of_getElem? hy)).1
      simp only [Nat.add_sub_cancel, hy, Option.map_some, Option.getD_some]
      omega
    have := nodup_length_le hnodup hsub
    rw [List.length_map] at this
    unfold maxAgenda
    omega
  obtain ⟨hlaws, hmax⟩ := agenda_f64
  obtain ⟨ho, hperm⟩ := hlaws.push (h := { node := 1, next := [], fx := zero, gx := zero }) hlaws.nil F64.finite_posZero
  obtain ⟨rest, hrest⟩ := first_found hlaws hmax g hn hjn hj0 ho hperm rfl rfl (fun k hk => (key1 k hk).1) key5.1 hfew
    (by
      intro k hk hne
      refine (F64.lt_true (F64.Finite.ne_nan (key1 k hk).1) (F64.Finite.ne_nan (key1 _ hjn).1)).2 ?_
      exact lt_of_lt_of_eq (lt_of_eq_of_lt (key1 k hk).2 (key3 k hk hne)) ((key1 _ hjn).2.trans key2).symm)
    (by
      intro k hk hne
      refine (F64.lt_true (F64.Finite.ne_nan (key1 k hk).1) (F64.Finite.ne_nan key5.1)).2 ?_
      exact lt_of_lt_of_eq (lt_of_eq_of_lt (key1 k hk).2 (key3 k hk hne)) key5.2.symm)
  have h' := h (fuel₀ + 3) (by omega)
  rw [nbest_eq _ _ _ _ hn, show idx (latticeOf sentence es).nodes 1 = .ok (LNode.new sentence.length 4294967295 0 zero) from rfl] at h'
  simp only [res_bind_ok] at h'
  rw [hv] at h'
  simp only [res_bind_ok] at h'
  rw [show (LNode.new sentence.length 4294967295 0 (zero : F64)).score = zero from rfl, hrest] at h'
  obtain ⟨found, h1, h3⟩ := bind_ok h'
  obtain ⟨res, h2, h4⟩ := bind_ok h3
  simp only [res_pure, Except.ok.injEq, Prod.mk.injEq] at h4
  obtain ⟨more, rfl⟩ := nbestLoop_prefix _ _ _ _ h1
  rw [List.singleton_append, List.mapM_cons] at h2
  rw [List.mapM_cons, idx_of_getElem? (hnodes (i + 2) (by omega)).1] at h2
  simp only [res_bind_ok, List.mapM_nil, res_pure] at h2
  obtain ⟨rs, _, h5⟩ := bind_ok h2
  simp only [Except.ok.injEq] at h5
  refine ⟨_, rs, by rw [← h4.2, ← h5], ?_⟩
  have := (hnodes (i + 2) (by omega)).2
  simp only [entryAt, hi, Option.some.injEq] at this
  exact congrArg (fun x => [x]) this.symm

end Tokengeex

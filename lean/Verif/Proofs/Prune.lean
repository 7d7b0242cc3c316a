import Verif.Spec.Prune
import Verif.Proofs.MergeDup
import Verif.Proofs.Filter
import Verif.Props.NBest
import Verif.Props.Marginal
/-
Pruning.
-/
namespace Tokengeex
open Spec ScoreOps RealOps

section entries
variable {F : Type}

/-- A path of tokens found in the sentence spells it. -/
theorem spells_of_contiguous {vocab : List (ScoredToken F)} {sentence : List UInt8} : ∀ (q : List (Entry F)) (a : Nat),
    (∀ e ∈ q, TokenAt vocab sentence e) → Contiguous a q sentence.length →
    Spells vocab (q.map (·.id)) (sentence.drop a) ∧ Canonical vocab (q.map (·.id)) := by
  intro q
  induction q with
  | nil =>
    intro a _ h
    refine ⟨spells_nil.2 ?_, by intro i hi; simp at hi⟩
    rw [List.drop_eq_nil_iff]
    exact Nat.le_of_eq h.symm
  | cons e q ih =>
    rintro a he ⟨rfl, h⟩
    obtain ⟨h1, h2⟩ := ih _ (fun x hx => he x (List.mem_cons_of_mem _ hx)) h
    obtain ⟨hpos, hle, hlast, t, ht, _⟩ := he e (List.mem_cons_self ..)
    obtain ⟨⟨t', ht', htv⟩, _⟩ := id hlast
    constructor
    · rw [List.map_cons]
      refine spells_cons.2 ⟨t', _, ht', h1, ?_⟩
      rw [htv, ← List.drop_drop, List.take_append_drop]
    · intro i hi
      rw [List.map_cons] at hi
      rcases List.mem_cons.1 hi with rfl | hi
      · refine ⟨_, ?_, hlast⟩
        intro h0
        have := congrArg List.length h0
        rw [List.length_take, List.length_drop] at this
        simp at this
        omega
      · exact h2 i hi

/-- Conversely. -/
theorem contiguous_of_spells {vocab : List (ScoredToken F)} {sentence : List UInt8} : ∀ (ids : List Nat) (a : Nat),
    a ≤ sentence.length → Spells vocab ids (sentence.drop a) → Canonical vocab ids →
    ∃ q : List (Entry F), q.map (·.id) = ids ∧ (∀ e ∈ q, TokenAt vocab sentence e) ∧ Contiguous a q sentence.length := by
  intro ids
  induction ids with
  | nil =>
    intro a ha h _
    rw [spells_nil, List.drop_eq_nil_iff] at h
    exact ⟨[], rfl, by simp, show a = _ by omega⟩
  | cons i ids ih =>
    intro a ha h hc
    obtain ⟨t, rest, h1, h2, h3⟩ := spells_cons.1 h
    obtain ⟨v, hv, hl⟩ := hc i (List.mem_cons_self ..)
    have hvt : v = t.value := by
      obtain ⟨⟨t', ht', e⟩, _⟩ := hl
      rw [h1] at ht'
      simp only [Option.some.injEq] at ht'
      rw [ht', e]
    subst hvt
    have hlen : t.value.length ≤ sentence.length - a := by
      have := congrArg List.length h3
      rw [List.length_drop, List.length_append] at this
      omega
    have hrest : rest = sentence.drop (a + t.value.length) := by
      rw [← List.drop_drop, h3]; simp
    subst hrest
    obtain ⟨q, e1, e2, e3⟩ := ih (a + t.value.length) (by omega) h2 (fun j hj => hc j (List.mem_cons_of_mem _ hj))
    refine ⟨⟨a, i, t.value.length, t.score⟩ :: q, by simp [e1], ?_, rfl, e3⟩
    intro e he
    rcases List.mem_cons.1 he with rfl | he
    · refine ⟨List.length_pos_iff.2 hv, by simp only; omega, ?_, t, h1, rfl⟩
      simp only
      rw [h3, List.take_left']
      · exact hl
      · rfl
    · exact e2 e he

end entries

namespace Pruner
variable {F : Type} [TrainOps F]

omit [TrainOps F] in
theorem alternativeOf_ok (nbests : List (List (LNode F))) :
    ∃ a, alternativeOf nbests = .ok a ∧
      (a.1 = false ↔ ∃ x y rest, nbests = x :: y :: rest ∧ 1 < x.length) ∧
      (a.2 ≠ [] ↔ ∃ x y rest, nbests = x :: y :: rest ∧ x.length = 1 ∧ y ≠ []) ∧
      (∀ x y rest, nbests = x :: y :: rest → x.length = 1 → a.2 = y.map (·.tokenId)) := by
  unfold alternativeOf
  match nbests with
  | [] => exact ⟨(true, []), by simp⟩
  | [x] => exact ⟨(true, []), by simp⟩
  | x :: y :: rest =>
    have e0 : idx (x :: y :: rest) 0 = .ok x := rfl
    have e1 : idx (x :: y :: rest) 1 = .ok y := rfl
    rw [e0, e1]
    simp only [List.length_cons, show decide (rest.length + 1 + 1 > 1) = true by simp, if_true, res_bind_ok, res_pure]
    by_cases hx : x.length = 1
    · rw [if_pos hx]
      refine ⟨_, rfl, ?_, ?_, ?_⟩
      · simp [hx]
      · simp [hx]
      · intro x' y' r' e _
        simp only [List.cons.injEq] at e
        rw [e.2.1]
    · rw [if_neg hx]
      refine ⟨_, rfl, ?_, ?_, ?_⟩
      · simp
      · simp [hx]
      · intro x' y' r' e h
        simp only [List.cons.injEq] at e
        rw [← e.1] at h
        exact absurd h hx

/-- What the code finds out about a token. -/
def AltOK (vocab : List (ScoredToken F)) (bs : List UInt8) (a : Bool × List Nat) : Prop :=
  (a.1 = false → ∃ alt, Resegments vocab bs alt) ∧ (a.2 ≠ [] → Resegments vocab bs a.2)

omit [TrainOps F] in
theorem entriesDistinct_nodup {es : List (Entry F)} (h : es.Pairwise (fun a b => ¬ (a.pos = b.pos ∧ a.len = b.len))) :
    es.Nodup := h.imp (fun {a b} hab e => hab (by rw [e]; exact ⟨rfl, rfl⟩))

/-- Segmenting one token. -/
theorem segment_one {heap : Heap F} {ok : List (Hypo F) → Prop} (hheap : HeapLaws heap ok) {vocab : List (ScoredToken F)}
    (hsize : vocab.length ≤ 4294967294) (rnd : Nat → F) (bs : List UInt8) (p : VecPool) (l : Lattice F) (hist : History p l) :
    ∃ p' es k l' results paths fuel₀, l.from_ bs p = .ok (latticeOf bs [], p') ∧ History p' l' ∧
      (Model.from_ vocab).populateNodes (latticeOf bs []) zero rnd = .ok (latticeOf bs es, k) ∧
      (∀ fuel ≥ fuel₀, (latticeOf bs es).nbest heap 2 fuel = .ok (l', results)) ∧
      AreResults results paths ∧ paths.Nodup ∧ (∀ q ∈ paths, PathOf bs.length es q) ∧ paths.length ≤ 2 ∧
      (∀ e ∈ es, TokenAt vocab bs e) ∧ es.Pairwise (fun a b => ¬ (a.pos = b.pos ∧ a.len = b.len)) ∧
      (lt (zero : F) zero = false → ∀ e, TokenAt vocab bs e → e ∈ es) := by
  obtain ⟨⟨p', h1, hh⟩, _⟩ := C32_reuse p l hist bs
  obtain ⟨es, k, h2, h3, h4, _, h6⟩ := C33_populate vocab bs zero rnd
  have hes : Inside bs.length es := by
    intro e he
    obtain ⟨a, b, _⟩ := h3 e he
    exact ⟨a, b⟩
  have hid : ∀ e ∈ es, e.id ≠ 4294967294 := by
    intro e he
    obtain ⟨_, _, ⟨⟨t, ht, _⟩, _⟩, _⟩ := h3 e he
    have := (List.getElem?_eq_some_iff.1 ht).1
    omega
  obtain ⟨l', results, paths, fuel₀, h7, h8, h9, h10, h11⟩ := C35_sound heap ok hheap p p' l _ (latticeOf bs es) hist bs es h1
    hes (by simpa using insertAll bs es hes) hid (entriesDistinct_nodup h4) 2 (by omega)
  exact ⟨p', es, k, l', results, paths, fuel₀, h1, .other _ hh, h2, fun fuel hf => h7 fuel hf, h8, h9, h10, h11, h3, h4, h6⟩

omit [TrainOps F] in
theorem altOK_of {vocab : List (ScoredToken F)} {bs : List UInt8} {es : List (Entry F)} (hes : ∀ e ∈ es, TokenAt vocab bs e)
    (hd : es.Pairwise (fun a b => ¬ (a.pos = b.pos ∧ a.len = b.len))) {results : List (List (LNode F))}
    {paths : List (List (Entry F))} (hr : AreResults results paths) (hnd : paths.Nodup)
    (hp : ∀ q ∈ paths, PathOf bs.length es q) {a : Bool × List Nat} (ha : alternativeOf results = .ok a) :
    AltOK vocab bs a := by
  obtain ⟨a', ha', h1, h2, h3⟩ := alternativeOf_ok results
  rw [ha] at ha'
  simp only [Except.ok.injEq] at ha'
  subst ha'
  have reseg : ∀ q ∈ paths, 1 < q.length → Resegments vocab bs (q.map (·.id)) := by
    intro q hq hl
    obtain ⟨hq1, hq2⟩ := hp q hq
    have := spells_of_contiguous q 0 (fun e he => hes e (hq1 e he)) hq2
    exact ⟨by simpa using hl, by simpa using this.1, this.2⟩
  unfold AreResults at hr
  constructor
  · intro hf
    obtain ⟨x, y, rest, hres, hx⟩ := h1.1 hf
    rw [hres] at hr
    refine ⟨_, reseg (x.map nodeEntry) (by rw [← hr]; simp) (by simpa using hx)⟩
  · intro hne
    obtain ⟨x, y, rest, hres, hx, hy⟩ := h2.1 hne
    rw [h3 x y rest hres hx]
    rw [hres] at hr
    have hyq : y.map nodeEntry ∈ paths := by rw [← hr]; simp
    have hxq : x.map nodeEntry ∈ paths := by rw [← hr]; simp
    have hids : (y.map nodeEntry).map (·.id) = y.map (·.tokenId) := by simp [nodeEntry]
    rw [← hids]
    refine reseg _ hyq ?_
    -- two different one-token paths are impossible
    rw [List.length_map]
    by_contra hlt
    obtain ⟨ex, hex⟩ := List.length_eq_one_iff.1 hx
    obtain ⟨ey, hey⟩ := List.length_eq_one_iff.1 (show y.length = 1 by
      have := List.length_pos_iff.2 hy
      omega)
    subst hex; subst hey
    simp only [List.map_cons, List.map_nil] at hr hxq hyq
    obtain ⟨hx1, hx2⟩ := hp _ hxq
    obtain ⟨hy1, hy2⟩ := hp _ hyq
    simp only [Contiguous] at hx2 hy2
    have hxe := hx1 _ (List.mem_singleton.2 rfl)
    have hye := hy1 _ (List.mem_singleton.2 rfl)
    have heq : nodeEntry ex = nodeEntry ey := by
      by_contra hne
      have : Std.Symm (fun a b : Entry F => ¬ (a.pos = b.pos ∧ a.len = b.len)) := ⟨by intro a b h; omega⟩
      exact hd.forall hxe hye hne (by omega)
    rw [← hr, heq] at hnd
    simp at hnd

/-- The loop that segments the tokens. -/
theorem segmentTokens_spec {heap : Heap F} {ok : List (Hypo F) → Prop} (hheap : HeapLaws heap ok)
    {vocab : List (ScoredToken F)} (hsize : vocab.length ≤ 4294967294) (rnd : Nat → F) : ∀ (ts : List (ScoredToken F))
    (p : VecPool) (l : Lattice F), History p l → ∃ alts fuel₀,
      (∀ fuel ≥ fuel₀, segmentTokens heap (Model.from_ vocab) rnd fuel ts (l, p) = .ok alts) ∧
      List.Forall₂ (fun t a => AltOK vocab t.value a) ts alts := by
  intro ts
  induction ts with
  | nil => intro p l _; exact ⟨[], 0, fun _ _ => rfl, .nil⟩
  | cons t ts ih =>
    intro p l hist
    obtain ⟨p', es, k, l', results, paths, f1, h1, hh, h2, h3, h4, h5, h6, _, h8, h9, _⟩ :=
      segment_one hheap hsize rnd t.value p l hist
    obtain ⟨a, ha, _⟩ := alternativeOf_ok results
    obtain ⟨alts, f2, h10, h11⟩ := ih p' l' hh
    refine ⟨a :: alts, max f1 f2, ?_, .cons (altOK_of h8 h9 h4 h5 h6 ha) h11⟩
    intro fuel hf
    rw [segmentTokens, h1]
    simp only [res_bind_ok]
    rw [h2]
    simp only [res_bind_ok]
    rw [h3 fuel (by omega)]
    simp only [res_bind_ok]
    rw [ha]
    simp only [res_bind_ok]
    rw [h10 fuel (by omega)]
    rfl

end Pruner
end Tokengeex

import Verif.Model.Counting
import Verif.Spec.Training
import Verif.Proofs.Parallel
import Mathlib.Data.List.Dedup
/-
Frequency tables hold the right counts, sequentially and in parallel.
-/
namespace Tokengeex
open Parallel
variable {K : Type}

namespace FreqTable
variable [DecidableEq K]

theorem entrySum_incr (k x : K) (t : FreqTable K) :
    entrySum k (incr t x) = entrySum k t + if x = k then 1 else 0 := by
  induction t with
  | nil => simp [incr, entrySum]
  | cons e t ih =>
    unfold incr
    by_cases h : e.1 = x
    · rw [if_pos h]
      subst h
      simp only [entrySum, List.map_cons, List.sum_cons]
      by_cases hk : e.1 = k <;> simp [hk]
      omega
    · rw [if_neg h]
      simp only [entrySum, List.map_cons, List.sum_cons] at ih ⊢
      rw [ih]; omega

theorem mem_keys_incr (k x : K) (t : FreqTable K) :
    k ∈ (incr t x).map (·.1) ↔ k = x ∨ k ∈ t.map (·.1) := by
  induction t with
  | nil => simp [incr]
  | cons e t ih =>
    unfold incr
    by_cases h : e.1 = x
    · rw [if_pos h]
      subst h
      simp
    · rw [if_neg h]
      rw [List.map_cons, List.mem_cons, ih, List.map_cons, List.mem_cons]
      tauto

theorem nodup_incr (x : K) (t : FreqTable K) (h : (t.map (·.1)).Nodup) : ((incr t x).map (·.1)).Nodup := by
  induction t with
  | nil => simp [incr]
  | cons e t ih =>
    rw [List.map_cons, List.nodup_cons] at h
    unfold incr
    by_cases hx : e.1 = x
    · rw [if_pos hx, List.map_cons, List.nodup_cons]; exact h
    · rw [if_neg hx, List.map_cons, List.nodup_cons]
      refine ⟨?_, ih h.2⟩
      rw [mem_keys_incr]
      rintro (e1 | e1)
      · exact hx e1
      · exact h.1 e1

/-- A table filled from a list of keys holds their numbers of occurrences. -/
theorem entrySum_foldl [BEq K] [LawfulBEq K] (k : K) (ks : List K) (t : FreqTable K) :
    entrySum k (ks.foldl incr t) = entrySum k t + ks.count k := by
  induction ks generalizing t with
  | nil => simp
  | cons x ks ih =>
    rw [List.foldl_cons, ih, entrySum_incr, List.count_cons]
    by_cases h : x = k <;> simp [h]; omega

end FreqTable

/-! ### Parallel counting -/

/-- If every worker's program is safe and adds, for every key, the contributions of the samples in its chunk, the shared
table ends up with the contributions of all samples. -/
theorem parCount_sum {α M : Type} [DecidableEq K] [AddCommMonoid M] {Worker : List α → List (Op K M) → Prop}
    (guard : K → Nat) (g : K → α → M)
    (hW : ∀ chunk p, Worker chunk p → Safe guard none none p ∧ ∀ k, pending k p = (chunk.map (g k)).sum)
    {samples : List α} {val : K → M} (h : ParCount Worker samples val) (k : K) :
    val k = (samples.map (g k)).sum := by
  obtain ⟨n, programs, sched, s, hn, hp, hrun, hfin, rfl⟩ := h
  have hsafe : ∀ p ∈ programs, Safe guard none none p := by
    intro p hmem
    obtain ⟨i, hi⟩ := List.mem_iff_getElem?.1 hmem
    obtain ⟨hi', e⟩ := List.getElem?_eq_some_iff.1 hi
    have := hp.get (by rw [hp.length_eq]; exact hi') hi'
    rw [List.get_eq_getElem, List.get_eq_getElem, e] at this
    exact (hW _ _ this).1
  rw [run_total guard _ programs hsafe sched s hrun hfin k]
  have : programs.map (pending k) = (chunks n samples).map (fun c => (c.map (g k)).sum) := by
    clear hrun hfin hsafe
    generalize chunks n samples = cs at hp
    induction hp with
    | nil => rfl
    | cons h1 _ ih => rw [List.map_cons, List.map_cons, ih, (hW _ _ h1).2 k]
  rw [this, zero_add]
  conv_rhs => rw [← chunks_flatten n hn samples]
  rw [List.map_flatten, List.sum_flatten, List.map_map]
  rfl

/-- The workers always return: if every one of them has a safe program, some run completes. -/
theorem parCount_exists {α M : Type} [DecidableEq K] [AddCommMonoid M] {Worker : List α → List (Op K M) → Prop}
    (guard : K → Nat) (n : Nat) (hn : 0 < n) (samples : List α)
    (hW : ∀ chunk ∈ chunks n samples, ∃ p, Worker chunk p ∧ Safe guard none none p) :
    ∃ val, ParCount Worker samples val := by
  have : ∀ cs : List (List α), (∀ chunk ∈ cs, ∃ p, Worker chunk p ∧ Safe guard none none p) →
      ∃ programs, List.Forall₂ Worker cs programs ∧ ∀ p ∈ programs, Safe guard none none p := by
    intro cs
    induction cs with
    | nil => intro _; exact ⟨[], .nil, by simp⟩
    | cons c cs ih =>
      intro h
      obtain ⟨ps, h1, h2⟩ := ih (fun x hx => h x (by simp [hx]))
      obtain ⟨p, h3, h4⟩ := h c (by simp)
      refine ⟨p :: ps, .cons h3 h1, ?_⟩
      intro q hq
      rcases List.mem_cons.1 hq with rfl | hq
      · exact h4
      · exact h2 q hq
  obtain ⟨programs, h1, h2⟩ := this _ hW
  obtain ⟨more, s, h3, h4⟩ := run_completes guard (fun _ => (0 : M)) programs h2 _ [] _ rfl (Nat.le_refl _)
  exact ⟨s.val, n, programs, more, s, hn, h1, h3, h4, rfl⟩

/-- A table with finitely many entries can be iterated over. -/
theorem iteration_exists [DecidableEq K] (val : K → Nat) (ks : List K) (h : ∀ k, val k ≠ 0 → k ∈ ks) :
    ∃ entries, Iteration val entries := by
  refine ⟨(ks.dedup.filter (fun k => val k ≠ 0)).map (fun k => (k, val k)), ?_, ?_⟩
  · rw [List.map_map]
    have : ((fun x : K × Nat => x.1) ∘ fun k => (k, val k)) = id := rfl
    rw [this, List.map_id]
    exact (List.nodup_dedup ks).filter _
  · intro k n
    simp only [List.mem_map, List.mem_filter, List.mem_dedup, Prod.mk.injEq]
    constructor
    · rintro ⟨k', ⟨h1, h2⟩, rfl, rfl⟩
      exact ⟨rfl, by simpa using h2⟩
    · rintro ⟨rfl, hn⟩
      exact ⟨k, ⟨h k hn, by simpa using hn⟩, rfl, rfl⟩

/-- A list of entries, sorted by decreasing number. -/
theorem sort_counts {α : Type} {s : Sorter (α × Nat)} (hs : Spec.SortLaws s) (entries : List (α × Nat)) :
    (s.run (fun a b => compare b.2 a.2) entries).Perm entries ∧
    (s.run (fun a b => compare b.2 a.2) entries).Pairwise (fun a b => b.2 ≤ a.2) := by
  obtain ⟨h1, h2⟩ := hs (fun a b => compare b.2 a.2) entries
  have key : ∀ a b : Nat, compare b a ≠ .gt ↔ b ≤ a := by
    intro a b
    rw [Nat.compare_ne_gt]
  refine ⟨h1, ?_⟩
  have h3 := h2 (fun a _ b _ => by
      simp only [key]; omega)
    (fun a _ b _ c _ => by simp only [key]; omega)
  exact h3.imp (fun {a b} h => (key a.2 b.2).1 h)

end Tokengeex

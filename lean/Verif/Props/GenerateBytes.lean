import Verif.Proofs.GenerateBytes
import Verif.Proofs.Feed
/-
C81: the loops of `feed` on byte offsets.
-/
namespace Tokengeex
open Spec GenerateBytes SplitterBytes Generator

theorem count_prefixesUpTo (max : Nat) (t : Str) : ∀ (s : Str) (len : Nat) (pre : Str), t ≠ [] →
    (prefixesUpTo max len pre s).count (pre ++ t) = if t <+: s ∧ len + (enc t).length ≤ max then 1 else 0 := by
  intro s
  induction s generalizing t with
  | nil =>
    intro len pre ht
    rw [if_neg]
    · rfl
    · rintro ⟨h, -⟩
      exact ht (List.prefix_nil.1 h)
  | cons c s ih =>
    intro len pre ht
    rw [prefixesUpTo]
    obtain ⟨d, t, rfl⟩ := List.exists_cons_of_ne_nil ht
    by_cases hm : len + (enc [c]).length > max
    · simp only [hm, if_true]
      rw [if_neg]
      · rfl
      · rintro ⟨h, h'⟩
        obtain ⟨rfl, -⟩ := List.cons_prefix_cons.1 h
        rw [enc_cons'] at h'
        omega
    · simp only [hm, if_false]
      by_cases hd : d = c
      · subst hd
        by_cases ht0 : t = []
        · subst ht0
          rw [List.count_cons, if_pos (by simp), if_pos ⟨by simp, by omega⟩, List.count_eq_zero.2]
          intro hin
          obtain ⟨q, hq1, -, hq2, -⟩ := (mem_prefixesUpTo ..).1 hin
          exact hq1 (by simpa using hq2)
        · rw [List.count_cons, if_neg]
          · have := ih t (len + (enc [d]).length) (pre ++ [d]) ht0
            rw [List.append_assoc, List.singleton_append] at this
            rw [this, enc_cons' d t]
            simp only [List.cons_prefix_cons, true_and, Nat.add_zero, Nat.add_assoc]
          · intro h
            have := congrArg List.length (eq_of_beq h)
            simp at this
            exact ht0 this
      · rw [if_neg (fun h => hd (List.cons_prefix_cons.1 h.1).1), List.count_eq_zero]
        intro hin
        rcases List.mem_cons.1 hin with h | h
        · have := List.append_cancel_left h
          exact hd (List.cons.inj this).1
        · obtain ⟨q, -, -, hq2, -⟩ := (mem_prefixesUpTo ..).1 h
          rw [List.append_assoc] at hq2
          have := List.append_cancel_left hq2
          exact hd (List.cons.inj this).1

theorem count_candidates (max : Nat) (t : Str) (ht : t ≠ []) (hl : (enc t).length ≤ max) : ∀ s : Str,
    (candidates max s).count t = (s.tails.countP fun r => t.isPrefixOf r) := by
  intro s
  induction s with
  | nil =>
    obtain ⟨d, t, rfl⟩ := List.exists_cons_of_ne_nil ht
    rfl
  | cons c s ih =>
    rw [candidates, List.count_append, ih, List.tails_cons, List.countP_cons]
    have := count_prefixesUpTo max t (c :: s) 0 [] ht
    rw [List.nil_append] at this
    rw [this, Nat.add_comm]
    congr 1
    by_cases h : t <+: c :: s
    · rw [if_pos ⟨h, by omega⟩, if_pos (List.isPrefixOf_iff_prefix.2 h)]
    · rw [if_neg (fun hh => h hh.1), if_neg (fun hh => h (List.isPrefixOf_iff_prefix.1 hh))]

/-- **C81** `feed` cuts candidates out of a text by byte offsets, yet it never slices inside a character (no call panics), and
what it cuts out are exactly the non-empty pieces of whole characters of at most `max_token_length` bytes, one for every place
where the piece occurs. -/
theorem C81_candidates (max : Nat) (text : Str) :
    ∃ cands : List Str, candidatesB max (enc text) = .ok (cands.map enc) ∧
      (∀ t, t ∈ cands ↔ t ≠ [] ∧ t <:+: text ∧ (enc t).length ≤ max) ∧
      (∀ t ∈ cands, cands.count t = text.tails.countP fun rest => t.isPrefixOf rest) := by
  refine ⟨candidates max text, candidatesB_enc max text, fun t => mem_candidates max t text, ?_⟩
  intro t ht
  obtain ⟨h1, -, h3⟩ := (mem_candidates ..).1 ht
  exact count_candidates max t h1 h3 text

/-- **C81** The candidates on byte offsets are those of the model on characters, in the same order, so that everything proved
of the latter (C46) holds of the former. -/
theorem C81_refines (max : Nat) (text : Str) :
    candidatesB max (enc text) = .ok ((candidates max text).map enc) := candidatesB_enc max text

/-- Characters of one, two and three bytes; at most three bytes per candidate. -/
example : candidatesB 3 (enc ['a', 'é', '€', 'a']) =
    .ok [enc ['a'], enc ['a', 'é'], enc ['é'], enc ['€'], enc ['a']] := by decide +kernel
/-- An end inside a character would panic. -/
example : sliceTo (enc ['é', 'a']) 1 = .error .panic ∧ candidatesB 1 (enc ['é', 'a']) = .ok [enc ['a']] := by decide +kernel

end Tokengeex

import Verif.Model.GenerateBytes
import Verif.Proofs.SplitterBytes
/-
The loops of `feed` on bytes look at the candidates that the loops on characters look at.
-/
namespace Tokengeex
namespace GenerateBytes
open SplitterBytes

theorem charIndices_conts (rest : List UInt8) : ∀ (tl : List UInt8) (i : Nat), (∀ x ∈ tl, isCont x = true) →
    charIndices i (tl ++ rest) = charIndices (i + tl.length) rest := by
  intro tl
  induction tl with
  | nil => intros; rfl
  | cons x tl ih =>
    intro i h
    rw [List.cons_append, charIndices, if_pos (h x (by simp)), ih _ fun y hy => h y (List.mem_cons_of_mem _ hy),
      List.length_cons]
    congr 1
    omega

theorem takeWhile_conts (s : Str) : ∀ (tl : List UInt8), (∀ x ∈ tl, isCont x = true) →
    (tl ++ enc s).takeWhile isCont = tl := by
  intro tl
  induction tl with
  | nil =>
    intro _
    cases s with
    | nil => rfl
    | cons c s =>
      obtain ⟨b, tl, e, hb, -⟩ := encodeChar_shape c
      rw [List.nil_append, enc_cons, e, List.cons_append, List.takeWhile_cons, hb]
      simp
  | cons x tl ih =>
    intro h
    rw [List.cons_append, List.takeWhile_cons, h x (by simp), ih fun y hy => h y (List.mem_cons_of_mem _ hy)]
    rfl

theorem charIndices_enc (i : Nat) (c : Char) (s : Str) : charIndices i (enc (c :: s)) =
    (i, (enc [c]).length) :: charIndices (i + (enc [c]).length) (enc s) := by
  obtain ⟨b, tl, e, hb, htl⟩ := encodeChar_shape c
  have h1 : enc [c] = b :: tl := by rw [enc_cons, e, enc_nil, List.append_nil]
  rw [enc_cons, e, List.cons_append, charIndices, if_neg (by rw [hb]; decide), takeWhile_conts s tl htl,
    charIndices_conts _ _ _ htl, h1, List.length_cons]
  congr 1
  · congr 1
    omega
  · congr 1
    omega

theorem innerB_enc (max : Nat) (suffix : Str) : ∀ (todo done : Str), suffix = done ++ todo →
    innerB max (enc suffix) (enc done).length (charIndices (enc done).length (enc todo)) =
      .ok ((Generator.prefixesUpTo max (enc done).length done todo).map enc) := by
  intro todo
  induction todo with
  | nil => intro done _; rfl
  | cons c todo ih =>
    intro done h
    have hl : (enc done).length + (enc [c]).length = (enc (done ++ [c])).length := by
      rw [enc_append, List.length_append]
    have h' : suffix = (done ++ [c]) ++ todo := by rw [h]; simp
    rw [charIndices_enc, innerB, Generator.prefixesUpTo]
    by_cases hm : (enc done).length + (enc [c]).length > max
    · rw [if_pos hm, if_pos hm]
      rfl
    · rw [if_neg hm, if_neg hm, hl]
      have hs : sliceTo (enc suffix) (enc (done ++ [c])).length = .ok (enc (done ++ [c])) := by rw [h', sliceTo_enc]
      rw [hs, ih (done ++ [c]) h']
      rfl

theorem outerB_enc (max : Nat) (part : Str) : ∀ (todo done : Str), part = done ++ todo →
    outerB max (enc part) (charIndices (enc done).length (enc todo)) =
      .ok ((Generator.candidates max todo).map enc) := by
  intro todo
  induction todo with
  | nil => intro done _; rfl
  | cons c todo ih =>
    intro done h
    have hl : (enc done).length + (enc [c]).length = (enc (done ++ [c])).length := by
      rw [enc_append, List.length_append]
    have h' : part = (done ++ [c]) ++ todo := by rw [h]; simp
    have hs : sliceFrom (enc part) (enc done).length = .ok (enc (c :: todo)) := by rw [h, sliceFrom_enc]
    have hi := innerB_enc max (c :: todo) (c :: todo) [] rfl
    rw [enc_nil, List.length_nil] at hi
    rw [charIndices_enc, outerB, hs, Generator.candidates, hl]
    simp only [bind, Except.bind]
    rw [hi, ih (done ++ [c]) h']
    simp [pure, Except.pure]

theorem candidatesB_enc (max : Nat) (part : Str) :
    candidatesB max (enc part) = .ok ((Generator.candidates max part).map enc) :=
  outerB_enc max part part [] rfl

end GenerateBytes
end Tokengeex

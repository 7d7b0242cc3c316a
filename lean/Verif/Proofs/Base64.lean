import Verif.Model.Base64
import Verif.Spec.Base64
/-
The base64 codec against its specification.
-/
namespace Tokengeex
namespace Base64
open Spec

theorem alphabet_symbol : ∀ v < 64, base64Alphabet[v]? = some (symbol v) := by decide

theorem value_symbol : ∀ v < 64, value (symbol v) = some v := by decide

theorem value_some {c : Char} {v : Nat} (h : value c = some v) : v < 64 ∧ symbol v = c := by
  unfold value at h
  by_cases h1 : 65 ≤ c.toNat ∧ c.toNat < 91
  · rw [if_pos h1] at h
    injection h with h
    refine ⟨by omega, ?_⟩
    unfold symbol
    rw [if_pos (by omega), ← h, show 65 + (c.toNat - 65) = c.toNat by omega, Char.ofNat_toNat]
  rw [if_neg h1] at h
  by_cases h2 : 97 ≤ c.toNat ∧ c.toNat < 123
  · rw [if_pos h2] at h
    injection h with h
    refine ⟨by omega, ?_⟩
    unfold symbol
    rw [if_neg (by omega), if_pos (by omega), ← h, show 97 + (c.toNat - 97 + 26 - 26) = c.toNat by omega,
      Char.ofNat_toNat]
  rw [if_neg h2] at h
  by_cases h3 : 48 ≤ c.toNat ∧ c.toNat < 58
  · rw [if_pos h3] at h
    injection h with h
    refine ⟨by omega, ?_⟩
    unfold symbol
    rw [if_neg (by omega), if_neg (by omega), if_pos (by omega), ← h,
      show 48 + (c.toNat - 48 + 52 - 52) = c.toNat by omega, Char.ofNat_toNat]
  rw [if_neg h3] at h
  by_cases h4 : c = '+'
  · rw [if_pos h4] at h
    injection h with h
    subst h h4
    decide
  rw [if_neg h4] at h
  by_cases h5 : c = '/'
  · rw [if_pos h5] at h
    injection h with h
    subst h h5
    decide
  rw [if_neg h5] at h
  cases h

theorem ofNat_of (a : UInt8) {n : Nat} (h : n = a.toNat) : UInt8.ofNat n = a := by
  subst h; exact UInt8.ofNat_toNat

theorem decode_encode : ∀ bs, decode (encode bs) = some bs
  | [] => rfl
  | [a] => by
    have ha := a.toNat_lt
    simp only [encode, decode, value_symbol _ (show a.toNat / 4 < 64 by omega),
      value_symbol _ (show a.toNat % 4 * 16 < 64 by omega), Option.bind_eq_bind, Option.bind_some]
    rw [if_pos (by omega), ofNat_of a (by omega)]
  | [a, b] => by
    have ha := a.toNat_lt
    have hb := b.toNat_lt
    simp only [encode, decode, value_symbol _ (show a.toNat / 4 < 64 by omega),
      value_symbol _ (show a.toNat % 4 * 16 + b.toNat / 16 < 64 by omega),
      value_symbol _ (show b.toNat % 16 * 4 < 64 by omega), Option.bind_eq_bind, Option.bind_some]
    rw [if_pos (by omega), ofNat_of a (by omega), ofNat_of b (by omega)]
  | a :: b :: c :: rest => by
    have ha := a.toNat_lt
    have hb := b.toNat_lt
    have hc := c.toNat_lt
    simp only [encode, decode, value_symbol _ (show a.toNat / 4 < 64 by omega),
      value_symbol _ (show a.toNat % 4 * 16 + b.toNat / 16 < 64 by omega),
      value_symbol _ (show b.toNat % 16 * 4 + c.toNat / 64 < 64 by omega),
      value_symbol _ (show c.toNat % 64 < 64 by omega), Option.bind_eq_bind, Option.bind_some, decode_encode rest]
    rw [ofNat_of a (by omega), ofNat_of b (by omega), ofNat_of c (by omega)]

theorem toNat_ofNat_small {n : Nat} (h : n < 256) : (UInt8.ofNat n).toNat = n := by
  rw [UInt8.toNat_ofNat']; exact Nat.mod_eq_of_lt h

theorem encode_decode : ∀ text bs, decode text = some bs → text = encode bs
  | [], bs => by intro h; simp only [decode] at h; injection h with h; subst h; rfl
  | [_], bs => by intro h; simp only [decode] at h; cases h
  | [a, b], bs => by
    intro h
    simp only [decode, Option.bind_eq_bind, Option.bind_eq_some_iff] at h
    obtain ⟨v, hv, w, hw, h⟩ := h
    obtain ⟨hv', rfl⟩ := value_some hv
    obtain ⟨hw', rfl⟩ := value_some hw
    by_cases hz : w % 16 = 0
    · rw [if_pos hz] at h
      injection h with h
      subst h
      simp only [encode, toNat_ofNat_small (show v * 4 + w / 16 < 256 by omega)]
      rw [show (v * 4 + w / 16) / 4 = v by omega, show (v * 4 + w / 16) % 4 * 16 = w by omega]
    · rw [if_neg hz] at h; cases h
  | [a, b, c], bs => by
    intro h
    simp only [decode, Option.bind_eq_bind, Option.bind_eq_some_iff] at h
    obtain ⟨v, hv, w, hw, x, hx, h⟩ := h
    obtain ⟨hv', rfl⟩ := value_some hv
    obtain ⟨hw', rfl⟩ := value_some hw
    obtain ⟨hx', rfl⟩ := value_some hx
    by_cases hz : x % 4 = 0
    · rw [if_pos hz] at h
      injection h with h
      subst h
      simp only [encode, toNat_ofNat_small (show v * 4 + w / 16 < 256 by omega),
        toNat_ofNat_small (show w % 16 * 16 + x / 4 < 256 by omega)]
      rw [show (v * 4 + w / 16) / 4 = v by omega,
        show (v * 4 + w / 16) % 4 * 16 + (w % 16 * 16 + x / 4) / 16 = w by omega,
        show (w % 16 * 16 + x / 4) % 16 * 4 = x by omega]
    · rw [if_neg hz] at h; cases h
  | a :: b :: c :: d :: rest, bs => by
    intro h
    simp only [decode, Option.bind_eq_bind, Option.bind_eq_some_iff] at h
    obtain ⟨v, hv, w, hw, x, hx, y, hy, bytes, hr, h⟩ := h
    obtain ⟨hv', rfl⟩ := value_some hv
    obtain ⟨hw', rfl⟩ := value_some hw
    obtain ⟨hx', rfl⟩ := value_some hx
    obtain ⟨hy', rfl⟩ := value_some hy
    injection h with h
    subst h
    have hrec := encode_decode rest bytes hr
    simp only [encode, toNat_ofNat_small (show v * 4 + w / 16 < 256 by omega),
      toNat_ofNat_small (show w % 16 * 16 + x / 4 < 256 by omega),
      toNat_ofNat_small (show x % 4 * 64 + y < 256 by omega), ← hrec]
    rw [show (v * 4 + w / 16) / 4 = v by omega,
      show (v * 4 + w / 16) % 4 * 16 + (w % 16 * 16 + x / 4) / 16 = w by omega,
      show (w % 16 * 16 + x / 4) % 16 * 4 + (x % 4 * 64 + y) / 64 = x by omega,
      show (x % 4 * 64 + y) % 64 = y by omega]

/-! ### Bits -/

theorem bits6_div4 : ∀ a < 256, bitsOf 6 (a / 4) ++ bitsOf 2 (a % 4) = bitsOf 8 a := by decide +kernel
theorem bits8_16 : ∀ a < 256, bitsOf 4 (a / 16) ++ bitsOf 4 (a % 16) = bitsOf 8 a := by decide +kernel
theorem bits8_64 : ∀ a < 256, bitsOf 2 (a / 64) ++ bitsOf 6 (a % 64) = bitsOf 8 a := by decide +kernel
theorem bits6_24 : ∀ p < 4, ∀ q < 16, bitsOf 6 (p * 16 + q) = bitsOf 2 p ++ bitsOf 4 q := by decide +kernel
theorem bits6_42 : ∀ p < 16, ∀ q < 4, bitsOf 6 (p * 4 + q) = bitsOf 4 p ++ bitsOf 2 q := by decide +kernel
def ofBits (l : List Bool) : Nat := l.foldl (fun n b => 2 * n + b.toNat) 0
theorem ofBits6 : ∀ p < 64, ofBits (bitsOf 6 p) = p := by decide +kernel
theorem ofBits8 : ∀ p < 256, ofBits (bitsOf 8 p) = p := by decide +kernel
theorem bits6_inj (p : Nat) (hp : p < 64) (q : Nat) (hq : q < 64) (h : bitsOf 6 p = bitsOf 6 q) : p = q := by
  rw [← ofBits6 p hp, h, ofBits6 q hq]
theorem bits8_inj (p : Nat) (hp : p < 256) (q : Nat) (hq : q < 256) (h : bitsOf 8 p = bitsOf 8 q) : p = q := by
  rw [← ofBits8 p hp, h, ofBits8 q hq]

theorem bitsOf_length (n v : Nat) : (bitsOf n v).length = n := by simp [bitsOf]

/-- The positions of the symbols that `encode` writes, and the number of zero bits it appends. -/
def positions : List UInt8 → List Nat
  | [] => []
  | [a] => [a.toNat / 4, a.toNat % 4 * 16 + 0]
  | [a, b] => [a.toNat / 4, a.toNat % 4 * 16 + b.toNat / 16, b.toNat % 16 * 4 + 0]
  | a :: b :: c :: rest =>
    a.toNat / 4 :: (a.toNat % 4 * 16 + b.toNat / 16) :: (b.toNat % 16 * 4 + c.toNat / 64) :: c.toNat % 64 ::
      positions rest

def padding : List UInt8 → Nat
  | [] => 0
  | [_] => 4
  | [_, _] => 2
  | _ :: _ :: _ :: rest => padding rest

theorem padding_lt : ∀ bs, padding bs < 6
  | [] => by simp [padding]
  | [_] => by simp [padding]
  | [_, _] => by simp [padding]
  | _ :: _ :: _ :: rest => by simpa [padding] using padding_lt rest

theorem positions_text : ∀ bs, (positions bs).map (fun p => base64Alphabet[p]?) = (encode bs).map some
  | [] => rfl
  | [a] => by
    have ha := a.toNat_lt
    simp only [positions, encode, List.map_cons, List.map_nil, Nat.add_zero]
    rw [alphabet_symbol _ (by omega), alphabet_symbol _ (by omega)]
  | [a, b] => by
    have ha := a.toNat_lt
    have hb := b.toNat_lt
    simp only [positions, encode, List.map_cons, List.map_nil, Nat.add_zero]
    rw [alphabet_symbol _ (by omega), alphabet_symbol _ (by omega), alphabet_symbol _ (by omega)]
  | a :: b :: c :: rest => by
    have ha := a.toNat_lt
    have hb := b.toNat_lt
    have hc := c.toNat_lt
    simp only [positions, encode, List.map_cons]
    rw [alphabet_symbol _ (by omega), alphabet_symbol _ (by omega), alphabet_symbol _ (by omega),
      alphabet_symbol _ (by omega), positions_text rest]

theorem positions_bits : ∀ bs, (positions bs).flatMap (bitsOf 6) =
    bs.flatMap (fun b => bitsOf 8 b.toNat) ++ List.replicate (padding bs) false
  | [] => rfl
  | [a] => by
    have ha := a.toNat_lt
    simp only [positions, List.flatMap_cons, List.flatMap_nil, List.append_nil]
    rw [bits6_24 _ (by omega) 0 (by omega), ← List.append_assoc, bits6_div4 _ ha]
    rfl
  | [a, b] => by
    have ha := a.toNat_lt
    have hb := b.toNat_lt
    simp only [positions, List.flatMap_cons, List.flatMap_nil, List.append_nil]
    rw [bits6_24 _ (by omega) _ (by omega), bits6_42 _ (by omega) 0 (by omega), ← bits6_div4 _ ha, ← bits8_16 _ hb]
    simp only [List.append_assoc]
    rfl
  | a :: b :: c :: rest => by
    have ha := a.toNat_lt
    have hb := b.toNat_lt
    have hc := c.toNat_lt
    simp only [positions, List.flatMap_cons, padding]
    rw [bits6_24 _ (by omega) _ (by omega), bits6_42 _ (by omega) _ (by omega), positions_bits rest, ← bits6_div4 _ ha,
      ← bits8_16 _ hb, ← bits8_64 _ hc]
    simp only [List.append_assoc]

theorem isBase64_encode (bs : List UInt8) : IsBase64 bs (encode bs) :=
  ⟨positions bs, padding bs, positions_text bs, padding_lt bs, positions_bits bs⟩

theorem flatMap_length {α : Type} (n : Nat) (f : α → List Bool) (hf : ∀ a, (f a).length = n) :
    ∀ l : List α, (l.flatMap f).length = n * l.length
  | [] => by simp
  | a :: l => by
    rw [List.flatMap_cons, List.length_append, hf, flatMap_length n f hf l, List.length_cons, Nat.mul_succ]; omega

theorem flatMap_inj {α : Type} (n : Nat) (f : α → List Bool) (good : α → Prop) (hf : ∀ a, (f a).length = n)
    (hinj : ∀ a b, good a → good b → f a = f b → a = b) :
    ∀ l m : List α, l.length = m.length → (∀ a ∈ l, good a) → (∀ a ∈ m, good a) →
      l.flatMap f = m.flatMap f → l = m
  | [], [], _, _, _, _ => rfl
  | [], _ :: _, h, _, _, _ => by simp at h
  | _ :: _, [], h, _, _, _ => by simp at h
  | a :: l, b :: m, h, hl, hm, he => by
    rw [List.flatMap_cons, List.flatMap_cons] at he
    obtain ⟨h1, h2⟩ := List.append_inj he (by rw [hf, hf])
    rw [hinj a b (hl a (by simp)) (hm b (by simp)) h1,
      flatMap_inj n f good hf hinj l m (by simpa using h) (fun x hx => hl x (by simp [hx]))
        (fun x hx => hm x (by simp [hx])) h2]

theorem positions_lt {ps : List Nat} {text : List Char}
    (h : ps.map (fun p => base64Alphabet[p]?) = text.map some) : ∀ p ∈ ps, p < 64 := by
  intro p hp
  have h1 : base64Alphabet[p]? ∈ text.map some := by
    rw [← h]; exact List.mem_map.2 ⟨p, hp, rfl⟩
  obtain ⟨c, _, hc⟩ := List.mem_map.1 h1
  have := (List.getElem?_eq_some_iff.1 hc.symm).1
  have hlen : base64Alphabet.length = 64 := by decide
  omega

theorem isBase64_unique {bs cs : List UInt8} {s t : List Char} (h₁ : IsBase64 bs s) (h₂ : IsBase64 cs t) :
    bs = cs ↔ s = t := by
  obtain ⟨p, k, hp, hk, hb⟩ := h₁
  obtain ⟨q, l, hq, hl, hc⟩ := h₂
  have len1 : 6 * p.length = 8 * bs.length + k := by
    rw [← flatMap_length 6 (bitsOf 6) (bitsOf_length 6) p, hb, List.length_append, List.length_replicate,
      flatMap_length 8 _ (fun b => bitsOf_length 8 _) bs]
  have len2 : 6 * q.length = 8 * cs.length + l := by
    rw [← flatMap_length 6 (bitsOf 6) (bitsOf_length 6) q, hc, List.length_append, List.length_replicate,
      flatMap_length 8 _ (fun b => bitsOf_length 8 _) cs]
  constructor
  · rintro rfl
    have hkl : k = l := by omega
    subst hkl
    have hpq : p = q := flatMap_inj 6 (bitsOf 6) (· < 64) (bitsOf_length 6) (fun a b ha hb => bits6_inj a ha b hb) p q
      (by omega) (positions_lt hp) (positions_lt hq) (by rw [hb, hc])
    subst hpq
    exact (List.map_inj_right (fun a b h => by injection h)).1 (hp.symm.trans hq)
  · rintro rfl
    have hst : p.map (fun p => base64Alphabet[p]?) = q.map (fun p => base64Alphabet[p]?) := hp.trans hq.symm
    have hpl : p.length = q.length := by simpa using congrArg List.length hst
    have hpq : p = q := by
      have hinj : ∀ a < 64, ∀ b < 64, base64Alphabet[a]? = base64Alphabet[b]? → a = b := by
        intro a ha b hb h
        rw [alphabet_symbol a ha, alphabet_symbol b hb] at h
        injection h with h
        have := value_symbol a ha
        rw [h, value_symbol b hb] at this
        injection this with this
        exact this.symm
      have hp' := positions_lt hp
      have hq' := positions_lt hq
      clear hp hq hb hc len1 len2
      induction p generalizing q with
      | nil => cases q with
        | nil => rfl
        | cons => simp at hpl
      | cons a p ih => cases q with
        | nil => simp at hpl
        | cons b q =>
          simp only [List.map_cons, List.cons.injEq] at hst
          rw [hinj a (hp' a (by simp)) b (hq' b (by simp)) hst.1,
            ih q hst.2 (by simpa using hpl) (fun x hx => hp' x (by simp [hx])) (fun x hx => hq' x (by simp [hx]))]
    subst hpq
    have hkl : k = l := by omega
    subst hkl
    have hbits : bs.flatMap (fun b => bitsOf 8 b.toNat) = cs.flatMap (fun b => bitsOf 8 b.toNat) :=
      List.append_cancel_right (hb.symm.trans hc)
    exact flatMap_inj 8 _ (fun _ => True) (fun b => bitsOf_length 8 _)
      (fun a b _ _ h => UInt8.toNat_inj.1 (bits8_inj _ a.toNat_lt _ b.toNat_lt h)) bs cs (by omega)
      (fun _ _ => trivial) (fun _ _ => trivial) hbits

end Base64
end Tokengeex

import Verif.Proofs.Number64
/-
The shortest digits of a double: they exist, they are at most 17 where scores lie, and reading them changes little.
-/
namespace Tokengeex
open Spec

theorem decimal_length {n L : Nat} (hL : 1 ≤ L) (h : n < 10 ^ L) : (decimal n).length ≤ L := by
  induction n using Nat.strongRecOn generalizing L with
  | _ n ih =>
    by_cases hn : n < 10
    · rw [decimal_small hn]; exact hL
    · rw [decimal_big hn, List.length_append, List.length_singleton]
      have hL2 : L ≠ 1 := by rintro rfl; omega
      obtain ⟨l, rfl⟩ : ∃ l, L = l + 1 := ⟨L - 1, by omega⟩
      rw [Nat.pow_succ] at h
      have := ih (n / 10) (by omega) (show 1 ≤ l by omega) (by omega)
      omega

theorem ofDigits_decimal (n : Nat) : ofDigits (decimal n) = n := (decimal_digits n).2.2.2

namespace F64

/-- Whatever is closer to a double than half its distance to its neighbours is rounded to it. -/
theorem roundMag_near {N d m k : Nat} (hd : 0 < d) (hm : m < 2 ^ 53) (hk : k = 0 ∨ 2 ^ 52 ≤ m)
    (h : 2 * ((N : Int) - (m * 2 ^ k * d : Nat)).natAbs < 2 ^ k * d)
    (h' : k ≠ 0 → m = 2 ^ 52 → 4 * ((N : Int) - (m * 2 ^ k * d : Nat)).natAbs < 2 ^ k * d) :
    roundMag N d = m * 2 ^ k := by
  obtain ⟨q, i, hv, hq, hi, hn⟩ := roundMag_nearest N d hd
  have h1 := (hn m k hm).1
  rw [← Int.natCast_mul, ← Int.natCast_mul] at h1
  apply Decidable.byContradiction
  intro hne
  generalize hr : roundMag N d = r at *
  generalize hx : m * 2 ^ k = x at *
  -- the distance between the two, times d
  have hdist : ∀ g, g ≤ r - x ∨ g ≤ x - r → g * d ≤ ((N : Int) - (r * d : Nat)).natAbs + ((N : Int) - (x * d : Nat)).natAbs := by
    rintro g (hg | hg)
    · have : g * d ≤ (r - x) * d := Nat.mul_le_mul_right _ hg
      rw [Nat.sub_mul] at this
      omega
    · have : g * d ≤ (x - r) * d := Nat.mul_le_mul_right _ hg
      rw [Nat.sub_mul] at this
      omega
  have hbig : ¬ (2 ^ k ≤ r - x ∨ 2 ^ k ≤ x - r) := fun hg => by
    have := hdist _ hg
    omega
  have hmult : ∀ a b c : Nat, a * c ≠ b * c → c ≤ a * c - b * c ∨ c ≤ b * c - a * c := by
    intro a b c hne
    rcases Nat.lt_trichotomy a b with h | h | h
    · right
      have := Nat.mul_le_mul_right c h
      rw [Nat.succ_mul] at this; omega
    · exact absurd (by rw [h]) hne
    · left
      have := Nat.mul_le_mul_right c h
      rw [Nat.succ_mul] at this; omega
  rcases Nat.lt_or_ge i k with hik | hik
  · have hm52 : 2 ^ 52 ≤ m := by omega
    have hp : ∀ j, 2 ^ (j + 1) = 2 * 2 ^ j := fun j => by rw [Nat.pow_succ]; omega
    have hr1 : r ≤ 2 ^ 53 * 2 ^ i := by rw [hv]; exact Nat.mul_le_mul_right _ hq
    have hr2 : 2 ^ 53 * 2 ^ i ≤ 2 ^ 52 * 2 ^ k := by
      calc 2 ^ 53 * 2 ^ i = 2 ^ 52 * 2 ^ (i + 1) := by rw [hp i]; omega
        _ ≤ 2 ^ 52 * 2 ^ k := Nat.mul_le_mul_left _ (Nat.pow_le_pow_right (by omega) hik)
    rcases Nat.eq_or_lt_of_le hm52 with he | hlt
    · have hq4 := h' (by omega) he.symm
      obtain ⟨k', rfl⟩ : ∃ k', k = k' + 1 := ⟨k - 1, by omega⟩
      have hx' : x = 2 ^ 53 * 2 ^ k' := by
        rw [← hx, ← he, hp k']; omega
      have hhalf : ¬ (2 ^ k' ≤ r - x ∨ 2 ^ k' ≤ x - r) := fun hg => by
        have := hdist _ hg
        rw [hp, Nat.mul_assoc] at hq4
        omega
      rcases Nat.lt_or_ge i k' with hik' | hik'
      · apply hhalf
        right
        have hr3 : 2 ^ 53 * 2 ^ i ≤ 2 ^ 52 * 2 ^ k' := by
          calc 2 ^ 53 * 2 ^ i = 2 ^ 52 * 2 ^ (i + 1) := by rw [hp i]; omega
            _ ≤ 2 ^ 52 * 2 ^ k' := Nat.mul_le_mul_left _ (Nat.pow_le_pow_right (by omega) hik')
        omega
      · have hii : i = k' := by omega
        subst hii
        apply hhalf
        rw [hv, hx'] at hne ⊢
        exact hmult _ _ _ hne
    · apply hbig
      right
      have : (2 ^ 52 + 1) * 2 ^ k ≤ m * 2 ^ k := Nat.mul_le_mul_right _ hlt
      rw [Nat.add_mul] at this
      omega
  · apply hbig
    have e : r = q * 2 ^ (i - k) * 2 ^ k := by rw [hv, Nat.mul_assoc, ← Nat.pow_add, show i - k + k = i by omega]
    rw [e, ← hx] at hne ⊢
    exact hmult _ _ _ hne

/-- The error of rounding a number in the normal range. -/
theorem roundMag_error {n d : Nat} (hd : 0 < d) (hn : 2 ^ 52 * d ≤ n) :
    2 ^ 53 * ((n : Int) - (roundMag n d * d : Nat)).natAbs ≤ n := by
  have hB := mul_pow_pos hd (spacing n d)
  have h1 : 2 ^ 52 * (d * 2 ^ spacing n d) ≤ n := by
    by_cases hs : spacing n d = 0
    · rw [hs]; omega
    · exact spacing_le n d hd hs
  have e : roundMag n d * d = roundDiv n (d * 2 ^ spacing n d) * (d * 2 ^ spacing n d) := by
    unfold roundMag
    rw [Nat.mul_assoc, Nat.mul_comm (2 ^ spacing n d)]
  rw [e]
  generalize d * 2 ^ spacing n d = B at *
  have h2 := Nat.div_add_mod' n B
  rcases roundDiv_cases (a := n) hB with ⟨h3, h4, _⟩ | ⟨h3, h4, _⟩
  · rw [h3]; omega
  · rw [h3, Nat.add_mul, Nat.one_mul]
    have := Nat.mod_lt n hB
    omega

theorem isDouble_normal {n : Nat} (h : IsDouble n) (hn : 2 ^ 52 ≤ n) : ∃ m k, 2 ^ 52 ≤ m ∧ m < 2 ^ 53 ∧ n = m * 2 ^ k := by
  obtain ⟨q, k, hv, hq, hk, _⟩ := roundMag_nearest n 1 (by omega)
  rw [roundMag_double h] at hv
  have hp : ∀ j, 2 ^ (j + 1) = 2 * 2 ^ j := fun j => by rw [Nat.pow_succ]; omega
  rcases Nat.eq_or_lt_of_le hq with rfl | hlt
  · exact ⟨2 ^ 52, k + 1, Nat.le_refl _, by decide, by rw [hv, hp k]; omega⟩
  · refine ⟨q, k, ?_, hlt, hv⟩
    rcases hk with rfl | hk
    · omega
    · exact hk

end F64

/-! ### Shortest digits exist -/

theorem identifies_pos {d : Nat} {k : Int} {n : Nat} (hn : n ≠ 0) (h : Identifies d k n) : d ≠ 0 := by
  rintro rfl
  apply hn
  rw [← h, Nat.zero_mul, Nat.zero_mul]
  exact (F64.roundMag_exact (m := 0) (k := 0) (Nat.pow_pos (by omega)) (by decide) (by simp)).trans (by simp)

theorem identifies_self {n : Nat} (h : IsDouble n) : Identifies (n * 5 ^ 1074) (-1074) n := by
  unfold Identifies
  have e : F64.roundMag n 1 = n := F64.roundMag_double h
  refine Eq.trans ?_ e
  refine F64.roundMag_congr (Nat.pow_pos (by omega)) (by omega) ?_
  have h10 : (10 : Nat) ^ 1074 = 5 ^ 1074 * 2 ^ 1074 := by rw [← Nat.mul_pow]
  rw [show (-(-1074 : Int)).toNat = 1074 from rfl, show (-1074 : Int).toNat = 0 from rfl, h10]
  generalize 2 ^ 1074 = U
  generalize 5 ^ 1074 = V
  ring

theorem identifies_le {D : Nat} {k : Int} {n a b : Nat} (h : Identifies D k n) (hb : 0 < b)
    (hab : D * 10 ^ k.toNat * b ≤ a * 10 ^ (-k).toNat) : n ≤ F64.roundMag (a * 2 ^ 1074) b := by
  rw [← h]
  refine F64.roundMag_mono (Nat.pow_pos (by omega)) hb ?_
  generalize 2 ^ 1074 = U
  calc D * 10 ^ k.toNat * U * b = D * 10 ^ k.toNat * b * U := by ring
    _ ≤ a * 10 ^ (-k).toNat * U := Nat.mul_le_mul_right _ hab
    _ = a * U * 10 ^ (-k).toNat := by ring

theorem le_identifies {D : Nat} {k : Int} {n a b : Nat} (h : Identifies D k n) (hb : 0 < b)
    (hab : a * 10 ^ (-k).toNat ≤ D * 10 ^ k.toNat * b) : F64.roundMag (a * 2 ^ 1074) b ≤ n := by
  rw [← h]
  refine F64.roundMag_mono hb (Nat.pow_pos (by omega)) ?_
  generalize 2 ^ 1074 = U
  calc a * U * 10 ^ (-k).toNat = a * 10 ^ (-k).toNat * U := by ring
    _ ≤ D * 10 ^ k.toNat * b * U := Nat.mul_le_mul_right _ hab
    _ = D * 10 ^ k.toNat * U * b := by ring

/-- Digits far below the smallest double identify zero. -/
theorem identifies_exp {D L : Nat} {k : Int} {n : Nat} (hn : n ≠ 0) (hD : D < 10 ^ L) (h : Identifies D k n) :
    -((L + 400 : Nat) : Int) ≤ k := by
  apply Decidable.byContradiction
  intro hlt
  have h1 : n ≤ F64.roundMag (1 * 2 ^ 1074) (10 ^ 400) := by
    refine identifies_le h (Nat.pow_pos (by omega)) ?_
    rw [show k.toNat = 0 by omega, Nat.pow_zero, Nat.mul_one, Nat.one_mul]
    calc D * 10 ^ 400 ≤ 10 ^ L * 10 ^ 400 := Nat.mul_le_mul_right _ (Nat.le_of_lt hD)
      _ = 10 ^ (L + 400) := (Nat.pow_add _ _ _).symm
      _ ≤ 10 ^ (-k).toNat := Nat.pow_le_pow_right (by omega) (by omega)
  have h2 : F64.roundMag (1 * 2 ^ 1074) (10 ^ 400) = 0 := by decide +kernel
  rw [h2] at h1
  omega

/-- The distance to the number, in units of `10^-K`. -/
def digitsError (n K D : Nat) (k : Int) : Nat :=
  ((D * 10 ^ (k + K).toNat * 2 ^ 1074 : Nat) - (n * 10 ^ K : Nat) : Int).natAbs

theorem digitsError_eq (n : Nat) {K : Nat} (D : Nat) {k : Int} (hk : -(K : Int) ≤ k) : digitsError n K D k =
    ((D * 10 ^ k.toNat * 2 ^ 1074 : Nat) - (n * 10 ^ (-k).toNat : Nat) : Int).natAbs * 10 ^ (K - (-k).toNat) := by
  unfold digitsError
  generalize 2 ^ 1074 = U
  have e1 : D * 10 ^ (k + K).toNat * U = D * 10 ^ k.toNat * U * 10 ^ (K - (-k).toNat) := by
    rw [show (k + K).toNat = k.toNat + (K - (-k).toNat) by omega, Nat.pow_add]
    ring
  have e2 : n * 10 ^ K = n * 10 ^ (-k).toNat * 10 ^ (K - (-k).toNat) := by
    rw [Nat.mul_assoc, ← Nat.pow_add, show (-k).toNat + (K - (-k).toNat) = K by omega]
  rw [e1, e2]
  generalize 10 ^ (K - (-k).toNat) = P
  generalize D * 10 ^ k.toNat * U = A
  generalize n * 10 ^ (-k).toNat = B
  rw [Int.natCast_mul, Int.natCast_mul, ← Int.sub_mul, Int.natAbs_mul, Int.natAbs_natCast]

theorem asClose_of {n K D D' : Nat} {k k' : Int} (hk : -(K : Int) ≤ k) (hk' : -(K : Int) ≤ k')
    (h : digitsError n K D k ≤ digitsError n K D' k') : AsClose n D k D' k' := by
  rw [digitsError_eq n D hk, digitsError_eq n D' hk'] at h
  unfold AsClose
  generalize ((D * 10 ^ k.toNat * 2 ^ 1074 : Nat) - (n * 10 ^ (-k).toNat : Nat) : Int).natAbs = x at *
  generalize ((D' * 10 ^ k'.toNat * 2 ^ 1074 : Nat) - (n * 10 ^ (-k').toNat : Nat) : Int).natAbs = x' at *
  have h2 := Nat.mul_le_mul_right (10 ^ ((-k).toNat + (-k').toNat)) h
  have e1 : x * 10 ^ (K - (-k).toNat) * 10 ^ ((-k).toNat + (-k').toNat) = x * 10 ^ (-k').toNat * 10 ^ K := by
    rw [Nat.mul_assoc, Nat.mul_assoc, ← Nat.pow_add, ← Nat.pow_add]
    congr 2
    omega
  have e2 : x' * 10 ^ (K - (-k').toNat) * 10 ^ ((-k).toNat + (-k').toNat) = x' * 10 ^ (-k).toNat * 10 ^ K := by
    rw [Nat.mul_assoc, Nat.mul_assoc, ← Nat.pow_add, ← Nat.pow_add]
    congr 2
    omega
  rw [e1, e2] at h2
  exact Nat.le_of_mul_le_mul_right h2 (Nat.pow_pos (by omega))

theorem shortest_exists {n : Nat} (hn : n ≠ 0) (h : IsDouble n) : ∃ ds k, Shortest n ds k := by
  classical
  have hex : ∃ L, ∃ ds k, (∀ d ∈ ds, d < 10) ∧ Identifies (ofDigits ds) k n ∧ ds.length = L :=
    ⟨_, decimal (n * 5 ^ 1074), -1074, (decimal_digits _).1, by rw [ofDigits_decimal]; exact identifies_self h, rfl⟩
  obtain ⟨ds₀, k₀, hd₀, hid₀, hlen₀⟩ := Nat.find_spec hex
  have hmin : ∀ ds' k', (∀ d ∈ ds', d < 10) → Identifies (ofDigits ds') k' n → Nat.find hex ≤ ds'.length := by
    intro ds' k' hd' hid'
    exact Nat.find_le ⟨ds', k', hd', hid', rfl⟩
  generalize Nat.find hex = L at *
  have hex2 : ∃ e, ∃ ds k, (∀ d ∈ ds, d < 10) ∧ Identifies (ofDigits ds) k n ∧ ds.length = L ∧
      digitsError n (L + 400) (ofDigits ds) k = e := ⟨_, ds₀, k₀, hd₀, hid₀, hlen₀, rfl⟩
  obtain ⟨ds, k, hd, hid, hlen, herr⟩ := Nat.find_spec hex2
  have hexp : ∀ ds' k', (∀ d ∈ ds', d < 10) → Identifies (ofDigits ds') k' n → ds'.length = L →
      -((L + 400 : Nat) : Int) ≤ k' := by
    intro ds' k' hd' hid' hl
    exact identifies_exp hn (hl ▸ ofDigits_lt hd') hid'
  refine ⟨ds, k, hd, ?_, hid, fun ds' k' h1 h2 => hlen ▸ hmin ds' k' h1 h2, ?_⟩
  · cases ds with
    | nil => exact absurd rfl (identifies_pos hn hid)
    | cons d more =>
      refine ⟨d, more, rfl, ?_⟩
      rintro rfl
      have e : ofDigits (0 :: more) = ofDigits more := by rw [ofDigits_cons]; omega
      have := hmin more k (fun x hx => hd x (by simp [hx])) (e ▸ hid)
      rw [← hlen] at this
      simp at this
  · intro ds' k' h1 h2 h3
    rw [hlen] at h3
    refine asClose_of (hexp ds k hd hid hlen) (hexp ds' k' h1 h2 h3) ?_
    rw [herr]
    exact Nat.find_le ⟨ds', k', h1, h2, h3, rfl⟩

/-- There is a way of printing as specified. -/
theorem serdeDoubles_exists : ∃ N : NumText F64, SerdeDoubles N := by
  classical
  refine ⟨⟨fun x => match x with
    | .nan => none
    | .inf _ => none
    | .num s n =>
      if n = 0 then some ⟨s, [0], some [0], none⟩
      else if h : ∃ ds k, Shortest n ds k ∧ IsDouble n then some (F64.layout s h.choose h.choose_spec.choose) else none,
    F64.ofText⟩, ?_⟩
  constructor
  · intro s; simp
  · intro s n hn hd
    have h : ∃ ds k, Shortest n ds k ∧ IsDouble n := by
      obtain ⟨ds, k, h⟩ := shortest_exists hn hd
      exact ⟨ds, k, h, hd⟩
    exact ⟨h.choose, h.choose_spec.choose, h.choose_spec.choose_spec.1, by simp only [if_neg hn, dif_pos h]⟩
  · exact ⟨rfl, fun _ => rfl⟩
  · intro x hx
    cases x with
    | nan => rfl
    | inf s => rfl
    | num s n =>
      have h0 : n ≠ 0 := by
        rintro rfl
        exact hx ⟨0, 0, by decide, by omega, by simp⟩
      have h : ¬ ∃ ds k, Shortest n ds k ∧ IsDouble n := by
        rintro ⟨_, _, _, h⟩; exact hx h
      simp only [if_neg h0, dif_neg h]
  · rfl

/-! ### What is printed is JSON -/

theorem layout_valid (s : Bool) {ds : List Nat} (hd : ∀ d ∈ ds, d < 10) (hh : ∃ d more, ds = d :: more ∧ d ≠ 0) (k : Int) :
    ValidNum (F64.layout s ds k) := by
  obtain ⟨d, more, rfl, h0⟩ := hh
  have hz : ∀ k x, x ∈ List.replicate k 0 → x < 10 := by
    intro k x hx; rw [(List.mem_replicate.1 hx).2]; omega
  have hexp : ∀ e : Int, (F64.expPart e).2 ≠ [] ∧ ∀ d ∈ (F64.expPart e).2, d < 10 := fun e =>
    ⟨(decimal_digits _).2.1, (decimal_digits _).1⟩
  unfold F64.layout
  simp only
  split
  · refine ⟨?_, by simp, ?_, ?_, by simp⟩
    · intro x hx
      rcases List.mem_append.1 hx with hx | hx
      · exact hd x hx
      · exact hz _ x hx
    · intro l hl
      rw [List.cons_append] at hl
      exact absurd (List.cons.inj hl).1 h0
    · intro l hl
      injection hl with hl
      subst hl; simp
  · rename_i h1
    split
    · rename_i h2
      simp only [List.length_cons] at h1 h2
      refine ⟨fun x hx => hd x (List.mem_of_mem_take hx), ?_, ?_, ?_, by simp⟩
      · intro h
        rw [List.take_eq_nil_iff] at h
        rcases h with h | h
        · simp only [List.length_cons] at h; omega
        · simp at h
      · intro l hl
        cases hn : (((d :: more).length : Int) + k).toNat with
        | zero => rw [hn] at hl; simp at hl
        | succ j =>
          rw [hn, List.take_succ_cons] at hl
          exact absurd (List.cons.inj hl).1 h0
      · intro l hl
        injection hl with hl
        subst hl
        refine ⟨?_, fun x hx => hd x (List.mem_of_mem_drop hx)⟩
        intro h
        rw [List.drop_eq_nil_iff] at h
        simp only [List.length_cons] at h
        omega
    · split
      · refine ⟨by simp, by simp, fun l hl => by simpa using hl.symm, ?_, by simp⟩
        intro l hl
        injection hl with hl
        subst hl
        refine ⟨by simp, ?_⟩
        intro x hx
        rcases List.mem_append.1 hx with hx | hx
        · exact hz _ x hx
        · exact hd x hx
      · split
        · refine ⟨hd, by simp, fun l hl => absurd (List.cons.inj hl).1 h0, by simp, ?_⟩
          intro sign l hl
          injection hl with hl
          have := hexp (((d :: more).length : Int) + k - 1)
          rw [hl] at this
          exact this
        · rename_i h4
          refine ⟨fun x hx => hd x (List.mem_of_mem_take hx), by simp, ?_, ?_, ?_⟩
          · intro l hl
            simp only [List.take_succ_cons, List.take_zero] at hl
            exact absurd (List.cons.inj hl).1 h0
          · intro l hl
            injection hl with hl
            subst hl
            refine ⟨?_, fun x hx => hd x (List.mem_of_mem_drop hx)⟩
            intro h
            rw [List.drop_eq_nil_iff] at h
            simp only [List.length_cons] at h h4
            omega
          · intro sign l hl
            injection hl with hl
            have := hexp (((d :: more).length : Int) + k - 1)
            rw [hl] at this
            exact this

theorem Spec.SerdeDoubles.prints {N : NumText F64} (h : SerdeDoubles N) : PrintsNumbers N := by
  intro x t ht
  cases x with
  | nan => rw [h.notFinite.1] at ht; simp at ht
  | inf s => rw [h.notFinite.2] at ht; simp at ht
  | num s n =>
    by_cases h0 : n = 0
    · subst h0
      rw [h.zero] at ht
      injection ht with ht
      subst ht
      exact ⟨by simp, by simp, fun l hl => by simpa using hl.symm, by simp, by simp⟩
    · by_cases hd : IsDouble n
      · obtain ⟨ds, k, hs, hp⟩ := h.finite s n h0 hd
        rw [hp] at ht
        injection ht with ht
        subst ht
        exact layout_valid s hs.digits hs.head k
      · rw [h.other (.num s n) hd] at ht; simp at ht

end Tokengeex

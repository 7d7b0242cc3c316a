import Verif.Proofs.Stable
import Verif.Props.WrittenFiles
import Verif.Spec.Reload
/-
C89: a tokenizer that has been saved and loaded once is not changed by saving and loading it again.
-/
namespace Tokengeex
open Spec

/-- **C89** Whatever calls built the tokenizer, if its special tokens need no escapes and its scores are zero or between
`10^-4` and `10^14` in absolute value, then saving and loading it gives some tokenizer, and doing so again any number of
times, in either format, gives the same tokenizer: only the first round can change a score. -/
theorem C89_stable_partial {N : NumText F64} (hN : SerdeDoubles N) (vocab : List (ScoredToken F64)) (processors : List Processor)
    (specials : List Str) (ops : List (Tokenizer.Op F64)) :
    let t := Tokenizer.build vocab processors specials ops
    (∀ s ∈ t.specialTokens, ∀ c ∈ s, ¬ (c = '"' ∨ c = '\\' ∨ c.toNat < 32)) →
    (∀ token ∈ t.model.vocab, ∃ s n, token.score = .num s n ∧ IsDouble n ∧
      (n = 0 ∨ 2 ^ 1074 ≤ n * 10 ^ 4 ∧ n < 10 ^ 14 * 2 ^ 1074)) →
    ∃ u, ∀ styles, styles ≠ [] → reloads N styles t = some u := by
  intro t hp hs
  have hu : ∃ u, ∀ style, Tokenizer.fromStr N (Json.write N style 0 t.toJson) = some u := by
    obtain ⟨u, hu⟩ := (C28_finite hN vocab processors specials ops .compact).2 ⟨hp, fun token ht => by
      obtain ⟨s, n, h1, h2, _⟩ := hs token ht
      rw [h1]; exact h2⟩
    refine ⟨u, fun style => ?_⟩
    rw [fromStr_write N hN.prints] at hu ⊢
    exact hu
  obtain ⟨u, hu⟩ := hu
  refine ⟨u, ?_⟩
  obtain ⟨hsp, hpr, hall, hnew⟩ := (C28_loaded N hN.prints vocab processors specials ops .compact).2 u (hu .compact)
  have hstable : ∀ token ∈ u.model.vocab, reread N token.score = some token.score := by
    have key : ∀ (l r : List (ScoredToken F64)), List.Forall₂ (Reloaded N) l r →
        (∀ token ∈ l, ∃ s n, token.score = .num s n ∧ IsDouble n ∧
          (n = 0 ∨ 2 ^ 1074 ≤ n * 10 ^ 4 ∧ n < 10 ^ 14 * 2 ^ 1074)) →
        ∀ token ∈ r, reread N token.score = some token.score := by
      intro l r h
      induction h with
      | nil => intro _ token h; simp at h
      | @cons a b l r hab _ ih =>
        intro hl token ht
        rcases List.mem_cons.1 ht with rfl | ht
        · obtain ⟨s, n, h1, h2, h3⟩ := hl a (by simp)
          have hr := hab.2.2
          rw [h1] at hr
          rcases h3 with rfl | ⟨h3, h4⟩
          · rw [reread_zero hN s] at hr
            rw [← Option.some.inj hr]
            exact reread_zero hN s
          · obtain ⟨n', h5, _⟩ := reread_close hN s h2
              (Nat.le_trans h3 (Nat.mul_le_mul_left _ (by omega))) (Nat.lt_of_lt_of_le h4 (Nat.mul_le_mul_right _ (by omega)))
            rw [h5] at hr
            rw [← Option.some.inj hr]
            exact reread_stable hN s h2 h3 h4 h5
        · exact ih (fun x hx => hl x (by simp [hx])) token ht
    exact key _ _ hall hs
  have hb : u = Tokenizer.build u.model.vocab t.processors t.specialTokens [] := hnew
  have hagain := C28_reload_partial N hN.prints u.model.vocab t.processors t.specialTokens []
  rw [← hb] at hagain
  have hfix := hagain (by rw [hsp]; exact hp) hstable
  have hfix' : ∀ style, Tokenizer.fromStr N (Json.write N style 0 u.toJson) = some u := by
    intro style
    cases style
    · exact hfix.1
    · exact hfix.2
  have hmore : ∀ styles, reloads N styles u = some u := by
    intro styles
    induction styles with
    | nil => rfl
    | cons style styles ih => rw [reloads, hfix' style]; exact ih
  intro styles hne
  cases styles with
  | nil => exact absurd rfl hne
  | cons style styles => rw [reloads, hu style]; exact hmore styles

/-- The shortest digits of a number, recognised by computation: its neighbours below `L` and from `H` on are other numbers,
nothing in between ends in a zero, and `D` is the closest. -/
theorem shortest_closest {n : Nat} {ds : List Nat} {k : Int} (hs : Shortest n ds k) (ds₀ : List Nat) (j L H : Nat)
    (hd : ∀ d ∈ ds₀, d < 10) (hid : Identifies (ofDigits ds₀) (-j) n) (hlow : 10 ^ (ds₀.length - 1) ≤ L)
    (hlen : 1 ≤ ds₀.length) (h10 : ∀ a, L < a → a < H → a % 10 ≠ 0)
    (hbelow : F64.roundMag (L * 2 ^ 1074) (10 ^ j) < n) (habove : n < F64.roundMag (H * 2 ^ 1074) (10 ^ j))
    (hclose : 2 * ((ofDigits ds₀ * 2 ^ 1074 : Nat) - (n * 10 ^ j : Nat) : Int).natAbs < 2 ^ 1074) :
    ofDigits ds = ofDigits ds₀ ∧ k = -j := by
  have hT : 0 < 10 ^ j := Nat.pow_pos (by omega)
  have hl := hs.minimal ds₀ (-j) hd hid
  have hlt := ofDigits_lt hs.digits
  have hid' := hs.identifies
  have hcl := hs.closest ds₀ (-j) hd hid
  generalize ofDigits ds₀ = D₀ at *
  generalize ofDigits ds = D at *
  have hno1 : ∀ a, a ≤ L → ¬ D * 10 ^ k.toNat * 10 ^ j ≤ a * 10 ^ (-k).toNat := by
    intro a ha h
    have h1 := identifies_le hid' hT h
    have h2 : F64.roundMag (a * 2 ^ 1074) (10 ^ j) ≤ F64.roundMag (L * 2 ^ 1074) (10 ^ j) :=
      F64.roundMag_mono hT hT (Nat.mul_le_mul_right _ (Nat.mul_le_mul_right _ ha))
    exact absurd (Nat.lt_of_le_of_lt (Nat.le_trans h1 h2) hbelow) (Nat.lt_irrefl _)
  have hno2 : ∀ a, H ≤ a → ¬ a * 10 ^ (-k).toNat ≤ D * 10 ^ k.toNat * 10 ^ j := by
    intro a ha h
    have h1 := le_identifies hid' hT h
    have h2 : F64.roundMag (H * 2 ^ 1074) (10 ^ j) ≤ F64.roundMag (a * 2 ^ 1074) (10 ^ j) :=
      F64.roundMag_mono hT hT (Nat.mul_le_mul_right _ (Nat.mul_le_mul_right _ ha))
    exact absurd (Nat.lt_of_lt_of_le habove (Nat.le_trans h2 h1)) (Nat.lt_irrefl _)
  have hge : -(j : Int) ≤ k := by
    apply Decidable.byContradiction
    intro hk
    apply hno1 (10 ^ (ds₀.length - 1)) hlow
    rw [show k.toNat = 0 by omega, Nat.pow_zero, Nat.mul_one]
    calc D * 10 ^ j ≤ 10 ^ ds.length * 10 ^ j := Nat.mul_le_mul_right _ (Nat.le_of_lt hlt)
      _ = 10 ^ (ds.length + j) := (Nat.pow_add _ _ _).symm
      _ ≤ 10 ^ (ds₀.length - 1 + (-k).toNat) := Nat.pow_le_pow_right (by omega) (by omega)
      _ = 10 ^ (ds₀.length - 1) * 10 ^ (-k).toNat := Nat.pow_add _ _ _
  have e : 10 ^ k.toNat * 10 ^ j = 10 ^ (k + j).toNat * 10 ^ (-k).toNat := by
    rw [← Nat.pow_add, ← Nat.pow_add]; congr 1; omega
  have e' : D * 10 ^ k.toNat * 10 ^ j = D * 10 ^ (k + j).toNat * 10 ^ (-k).toNat := by
    rw [Nat.mul_assoc, e, Nat.mul_assoc]
  rw [e'] at hno1 hno2
  have hin : L < D * 10 ^ (k + j).toNat ∧ D * 10 ^ (k + j).toNat < H :=
    ⟨Nat.not_le.1 fun h => hno1 _ h (Nat.le_refl _), Nat.not_le.1 fun h => hno2 _ h (Nat.le_refl _)⟩
  have hk : k = -j := by
    cases hj : (k + j).toNat with
    | zero => omega
    | succ i =>
      rw [hj, Nat.pow_succ, ← Nat.mul_assoc] at hin
      exact absurd (Nat.mul_mod_left _ _) (h10 _ hin.1 hin.2)
  subst hk
  rw [show (-(j : Int) + j).toNat = 0 by omega, Nat.pow_zero, Nat.mul_one] at hin
  have hll : ds₀.length = ds.length := by
    apply Nat.le_antisymm _ hl
    have h1 : 10 ^ (ds₀.length - 1) < 10 ^ ds.length := by omega
    have := (Nat.pow_lt_pow_iff_right (a := 10) (by omega)).1 h1
    omega
  refine ⟨?_, rfl⟩
  have hc := hcl hll
  unfold AsClose at hc
  rw [show (- -(j : Int)).toNat = j by omega, show (-(j : Int)).toNat = 0 by omega, Nat.pow_zero, Nat.mul_one, Nat.mul_one] at hc
  have hc := Nat.le_of_mul_le_mul_right hc hT
  clear e e' hno1 hno2 hid hid' hbelow habove hcl
  generalize n * 10 ^ j = X at *
  generalize 2 ^ 1074 = U at *
  by_contra hne
  rcases Nat.lt_or_gt_of_ne hne with h | h
  · have := Nat.mul_le_mul_right U (show D + 1 ≤ D₀ from h)
    rw [Nat.add_mul, Nat.one_mul] at this
    omega
  · have := Nat.mul_le_mul_right U (show D₀ + 1 ≤ D from h)
    rw [Nat.add_mul, Nat.one_mul] at this
    omega

attribute [local irreducible] minus

/-- How a number is read back if its digits are recognised by computation. -/
theorem reread_computed {N : NumText F64} (hN : SerdeDoubles N) {d j L H : Nat} (hlen1 : 1 ≤ (decimal d).length) (hlen : (decimal d).length ≤ 17) (hj : 1 ≤ j)
    (hj' : j ≤ 308) (hlow : 10 ^ ((decimal d).length - 1) ≤ L) (hup : d < 2 ^ 64) (h10 : L / 10 = (H - 1) / 10)
    (hpos : F64.roundMag (d * 2 ^ 1074) (10 ^ j) ≠ 0)
    (hlim : F64.roundMag (d * 2 ^ 1074) (10 ^ j) < F64.limit)
    (hbelow : F64.roundMag (L * 2 ^ 1074) (10 ^ j) < F64.roundMag (d * 2 ^ 1074) (10 ^ j))
    (habove : F64.roundMag (d * 2 ^ 1074) (10 ^ j) < F64.roundMag (H * 2 ^ 1074) (10 ^ j))
    (hclose : 2 * ((d * 2 ^ 1074 : Nat) - (F64.roundMag (d * 2 ^ 1074) (10 ^ j) * 10 ^ j : Nat) : Int).natAbs < 2 ^ 1074) :
    reread N (minus d j) = some (F64.neg (F64.div (F64.ofNat d) (F64.pow10 j))) := by
  have hdbl := minus_double d j
  have hdig := ofDigits_decimal d
  rw [minus_num hlim] at hdbl ⊢
  obtain ⟨ds, k, hs, hp⟩ := hN.finite true _ hpos hdbl
  have hid := identifies_minus d j
  obtain ⟨h1, h2⟩ := shortest_closest hs (decimal d) j L H (decimal_digits _).1 (by rw [hdig]; exact hid)
    hlow hlen1 (by
      intro a h1 h2 h3
      omega)
    hbelow habove (by rw [hdig]; exact hclose)
  rw [hdig] at h1
  subst h2
  have hne : ds ≠ [] := by
    obtain ⟨d, more, rfl, _⟩ := hs.head; simp
  have hle := hs.minimal (decimal d) (-j) (decimal_digits _).1 (by rw [hdig]; exact hid)
  rw [reread, hp, Option.bind_some, hN.reading,
    F64.ofText_layout true ds _ hs.digits hne (by rw [h1]; exact hup) (by omega) (by omega), if_neg (by omega), h1]
  unfold F64.fromParts
  simp only
  rw [if_neg (by omega), show (-(j : Int)).natAbs = j by omega, F64.scaleDown, if_pos hj']
  simp only [if_true]

/-- `-1.5e-9` is read as it was. -/
theorem reread_short {N : NumText F64} (hN : SerdeDoubles N) : reread N (minus 15 10) = some (minus 15 10) := by
  rw [reread_computed hN (d := 15) (j := 10) (L := 14) (H := 16) (by decide +kernel) (by decide +kernel)
    (by omega) (by omega) (by decide +kernel) (by omega) (by omega) (by decide +kernel) (by decide +kernel) (by decide +kernel)
    (by decide +kernel) (by decide +kernel)]
  exact (by decide +kernel : some (F64.neg (F64.div (F64.ofNat 15) (F64.pow10 10))) = some (minus 15 10))

/-- `-5.073177355912338e-9` is read as it was. -/
theorem reread_sixteen {N : NumText F64} (hN : SerdeDoubles N) : reread N (minus 5073177355912338 24) = some (minus 5073177355912338 24) := by
  rw [reread_computed hN (d := 5073177355912338) (j := 24) (L := 5073177355912337) (H := 5073177355912339) (by decide +kernel) (by decide +kernel)
    (by omega) (by omega) (by decide +kernel) (by omega) (by omega) (by decide +kernel) (by decide +kernel) (by decide +kernel)
    (by decide +kernel) (by decide +kernel)]
  exact (by decide +kernel : some (F64.neg (F64.div (F64.ofNat 5073177355912338) (F64.pow10 24))) = some (minus 5073177355912338 24))

/-- `-6.573177355912339e-9` is read as the next double, `-6.5731773559123394e-9`. -/
theorem reread_flip {N : NumText F64} (hN : SerdeDoubles N) : reread N (minus 6573177355912339 24) = some (minus 65731773559123394 25) := by
  rw [reread_computed hN (d := 6573177355912339) (j := 24) (L := 6573177355912338) (H := 6573177355912340) (by decide +kernel) (by decide +kernel)
    (by omega) (by omega) (by decide +kernel) (by omega) (by omega) (by decide +kernel) (by decide +kernel) (by decide +kernel)
    (by decide +kernel) (by decide +kernel)]
  exact (by decide +kernel : some (F64.neg (F64.div (F64.ofNat 6573177355912339) (F64.pow10 24))) = some (minus 65731773559123394 25))

/-- and that one is read as `-6.573177355912339e-9`. -/
theorem reread_flop {N : NumText F64} (hN : SerdeDoubles N) : reread N (minus 65731773559123394 25) = some (minus 6573177355912339 24) := by
  rw [reread_computed hN (d := 65731773559123394) (j := 25) (L := 65731773559123390) (H := 65731773559123399) (by decide +kernel) (by decide +kernel)
    (by omega) (by omega) (by decide +kernel) (by omega) (by omega) (by decide +kernel) (by decide +kernel) (by decide +kernel)
    (by decide +kernel) (by decide +kernel)]
  exact (by decide +kernel : some (F64.neg (F64.div (F64.ofNat 65731773559123394) (F64.pow10 25))) = some (minus 6573177355912339 24))


/-- The tokens "a", "b" and "ab", the last one with the given score. -/
def flipVocab (x : F64) : List (ScoredToken F64) :=
  [⟨[97], minus 15 10, false⟩, ⟨[98], minus 5073177355912338 24, false⟩, ⟨[97, 98], x, false⟩]

/-- C89 is false for smaller scores: there are two tokenizers, without special tokens and with finite scores, that differ
in one score, encode "ab" differently, and turn into each other whenever they are saved and loaded, in either format and
for ever. -/
theorem C89_false {N : NumText F64} (hN : SerdeDoubles N) (norm : UnicodeForm → Str → Str) (rnd : Nat → F64) :
    let t := Tokenizer.build (flipVocab (minus 6573177355912339 24)) [] [] []
    let u := Tokenizer.build (flipVocab (minus 65731773559123394 25)) [] [] []
    t.encode norm ['a', 'b'] (.num false 0) rnd = .ok [2] ∧ u.encode norm ['a', 'b'] (.num false 0) rnd = .ok [0, 1] ∧
    ∀ styles, reloads N styles t = some (if styles.length % 2 = 0 then t else u) ∧
      reloads N styles u = some (if styles.length % 2 = 0 then u else t) := by
  intro t u
  refine ⟨encode_simple (flipVocab _) norm rnd _ (by decide +kernel), encode_simple (flipVocab _) norm rnd _ (by decide +kernel), ?_⟩
  have ht : ∀ style, Tokenizer.fromStr N (Json.write N style 0 t.toJson) = some u := by
    intro style
    rw [fromStr_write N hN.prints, if_pos (by intro s hs; have e : t.specialTokens = [] := rfl; rw [e] at hs; simp at hs)]
    have hv : t.model.vocab = flipVocab (minus 6573177355912339 24) := rfl
    rw [hv]
    simp only [flipVocab, List.mapM_cons, List.mapM_nil, reread_short hN, reread_sixteen hN, reread_flip hN]
    rfl
  have hu : ∀ style, Tokenizer.fromStr N (Json.write N style 0 u.toJson) = some t := by
    intro style
    rw [fromStr_write N hN.prints, if_pos (by intro s hs; have e : u.specialTokens = [] := rfl; rw [e] at hs; simp at hs)]
    have hv : u.model.vocab = flipVocab (minus 65731773559123394 25) := rfl
    rw [hv]
    simp only [flipVocab, List.mapM_cons, List.mapM_nil, reread_short hN, reread_sixteen hN, reread_flop hN]
    rfl
  intro styles
  induction styles with
  | nil => exact ⟨rfl, rfl⟩
  | cons style styles ih =>
    rw [reloads, reloads, ht, hu, Option.bind_some, Option.bind_some, ih.1, ih.2, List.length_cons]
    rcases Nat.mod_two_eq_zero_or_one styles.length with h | h
    · rw [if_pos h, if_neg (by omega), if_pos h, if_neg (by omega)]; exact ⟨rfl, rfl⟩
    · rw [if_neg (by omega), if_pos (by omega), if_neg (by omega), if_pos (by omega)]; exact ⟨rfl, rfl⟩

/-- The hypotheses of C89_stable_partial: the vocabulary whose tokenisation changes on the first round, without the token
with score `-0.00001`. -/
example : ∃ vocab : List (ScoredToken F64),
    (∀ token ∈ vocab, ∃ s n, token.score = .num s n ∧ IsDouble n ∧ (n = 0 ∨ 2 ^ 1074 ≤ n * 10 ^ 4 ∧ n < 10 ^ 14 * 2 ^ 1074)) ∧
    ∀ N, SerdeDoubles N → ∃ token ∈ vocab, reread N token.score ≠ some token.score := by
  refine ⟨[⟨[97], minus 9200009999999999 15, false⟩], ?_, fun N hN => ⟨_, List.mem_singleton.2 rfl, ?_⟩⟩
  · intro token h
    rw [List.mem_singleton.1 h]
    have hd := minus_double 9200009999999999 15
    have hlim : F64.roundMag (9200009999999999 * 2 ^ 1074) (10 ^ 15) < F64.limit := by decide +kernel
    rw [minus_num hlim] at hd
    exact ⟨true, _, minus_num hlim, hd, .inr ⟨by decide +kernel, by decide +kernel⟩⟩
  · show reread N (minus 9200009999999999 15) ≠ _
    rw [reread_witness hN]
    exact (by decide +kernel : ¬ some (minus 920001 5) = some (minus 9200009999999999 15))

end Tokengeex

import Verif.Proofs.Reread
import Verif.Props.Serde
/-
C27 and C28 for the doubles of serde_json: which scores survive being saved and loaded.
-/
namespace Tokengeex
open Spec

theorem shortest_unique {n : Nat} {ds : List Nat} {k : Int} (hs : Shortest n ds k) (ds₀ : List Nat) (j : Nat)
    (hd : ∀ d ∈ ds₀, d < 10) (hid : Identifies (ofDigits ds₀) (-j) n) (hlow : 10 ^ (ds₀.length - 1) < ofDigits ds₀)
    (hlen : 1 ≤ ds₀.length) (h10 : ofDigits ds₀ % 10 ≠ 0)
    (hbelow : F64.roundMag ((ofDigits ds₀ - 1) * 2 ^ 1074) (10 ^ j) < n)
    (habove : n < F64.roundMag ((ofDigits ds₀ + 1) * 2 ^ 1074) (10 ^ j)) : ofDigits ds = ofDigits ds₀ ∧ k = -j := by
  have hT : 0 < 10 ^ j := Nat.pow_pos (by omega)
  have hl := hs.minimal ds₀ (-j) hd hid
  have hlt := ofDigits_lt hs.digits
  have hid' := hs.identifies
  generalize ofDigits ds₀ = D₀ at *
  generalize ofDigits ds = D at *
  -- a decimal below the predecessor, or above the successor, identifies something else
  have hno1 : ∀ a, a ≤ D₀ - 1 → ¬ D * 10 ^ k.toNat * 10 ^ j ≤ a * 10 ^ (-k).toNat := by
    intro a ha h
    have h1 := identifies_le hid' hT h
    have h2 : F64.roundMag (a * 2 ^ 1074) (10 ^ j) ≤ F64.roundMag ((D₀ - 1) * 2 ^ 1074) (10 ^ j) :=
      F64.roundMag_mono hT hT (Nat.mul_le_mul_right _ (Nat.mul_le_mul_right _ ha))
    exact absurd (Nat.lt_of_le_of_lt (Nat.le_trans h1 h2) hbelow) (Nat.lt_irrefl _)
  have hno2 : ∀ a, D₀ + 1 ≤ a → ¬ a * 10 ^ (-k).toNat ≤ D * 10 ^ k.toNat * 10 ^ j := by
    intro a ha h
    have h1 := le_identifies hid' hT h
    have h2 : F64.roundMag ((D₀ + 1) * 2 ^ 1074) (10 ^ j) ≤ F64.roundMag (a * 2 ^ 1074) (10 ^ j) :=
      F64.roundMag_mono hT hT (Nat.mul_le_mul_right _ (Nat.mul_le_mul_right _ ha))
    exact absurd (Nat.lt_of_lt_of_le habove (Nat.le_trans h2 h1)) (Nat.lt_irrefl _)
  have hge : -(j : Int) ≤ k := by
    apply Decidable.byContradiction
    intro hk
    apply hno1 (10 ^ (ds₀.length - 1)) (by omega)
    rw [show k.toNat = 0 by omega, Nat.pow_zero, Nat.mul_one]
    calc D * 10 ^ j ≤ 10 ^ ds.length * 10 ^ j := Nat.mul_le_mul_right _ (Nat.le_of_lt hlt)
      _ = 10 ^ (ds.length + j) := (Nat.pow_add _ _ _).symm
      _ ≤ 10 ^ (ds₀.length - 1 + (-k).toNat) := Nat.pow_le_pow_right (by omega) (by omega)
      _ = 10 ^ (ds₀.length - 1) * 10 ^ (-k).toNat := Nat.pow_add _ _ _
  have e : 10 ^ k.toNat * 10 ^ j = 10 ^ (k + j).toNat * 10 ^ (-k).toNat := by
    rw [← Nat.pow_add, ← Nat.pow_add]; congr 1; omega
  have e' : D * 10 ^ k.toNat * 10 ^ j = D * 10 ^ (k + j).toNat * 10 ^ (-k).toNat := by
    rw [Nat.mul_assoc, e, Nat.mul_assoc]
  rw [e'] at hno1 hno2
  have heq : D * 10 ^ (k + j).toNat = D₀ := by
    rcases Nat.lt_trichotomy (D * 10 ^ (k + j).toNat) D₀ with h | h | h
    · exact absurd (Nat.le_refl _) (hno1 _ (by omega))
    · exact h
    · exact absurd (Nat.le_refl _) (hno2 _ (by omega))
  cases hj : (k + j).toNat with
  | zero => rw [hj, Nat.pow_zero, Nat.mul_one] at heq; exact ⟨heq, by omega⟩
  | succ i =>
    rw [hj, Nat.pow_succ, ← Nat.mul_assoc] at heq
    exact absurd (by rw [← heq]; exact Nat.mul_mod_left _ _) h10

/-- The double nearest to `-d * 10^-j`. -/
def minus (d j : Nat) : F64 := F64.round true (d * 2 ^ 1074) (10 ^ j)

theorem minus_double (d j : Nat) : IsF64 (minus d j) := F64.isF64_round _ _ (Nat.pow_pos (by omega))

theorem minus_num {d j : Nat} (h : F64.roundMag (d * 2 ^ 1074) (10 ^ j) < F64.limit) :
    minus d j = .num true (F64.roundMag (d * 2 ^ 1074) (10 ^ j)) := F64.round_of rfl h

theorem identifies_minus (d j : Nat) : Identifies d (-j) (F64.roundMag (d * 2 ^ 1074) (10 ^ j)) := by
  unfold Identifies
  rw [show (-(j : Int)).toNat = 0 by omega, show (- -(j : Int)).toNat = j by omega, Nat.pow_zero, Nat.mul_one]

/-- A number with 15 digits in the range of C27_digits_partial. -/
theorem minus_ok {d j : Nat} (hd : d < 10 ^ 15) (hlo : 2 ^ 1074 ≤ F64.roundMag (d * 2 ^ 1074) (10 ^ j) * 10 ^ 5)
    (hhi : F64.roundMag (d * 2 ^ 1074) (10 ^ j) < 10 ^ 15 * 2 ^ 1074) :
    ∃ n, minus d j = .num true n ∧ IsDouble n ∧ 2 ^ 1074 ≤ n * 10 ^ 5 ∧ n < 10 ^ 15 * 2 ^ 1074 ∧
      ∃ ds k, (∀ d ∈ ds, d < 10) ∧ ds.length ≤ 15 ∧ Identifies (ofDigits ds) k n := by
  have hnum := minus_num (lt_limit_of_range hhi)
  have hdbl := minus_double d j
  rw [hnum] at hdbl
  refine ⟨_, hnum, hdbl, hlo, hhi, decimal d, -j, (decimal_digits d).1, decimal_length (by omega) hd, ?_⟩
  rw [ofDigits_decimal]
  exact identifies_minus d j

attribute [local irreducible] minus

/-- If only one text with the fewest digits exists, this is how it is read. -/
theorem reread_minus {N : NumText F64} (hN : SerdeDoubles N) {d j : Nat} (hlen : (decimal d).length = 16) (hj : 1 ≤ j)
    (hj' : j ≤ 308) (hlow : 10 ^ 15 < d) (hup : d < 2 ^ 64) (h10 : d % 10 ≠ 0)
    (hpos : F64.roundMag (d * 2 ^ 1074) (10 ^ j) ≠ 0)
    (hlim : F64.roundMag (d * 2 ^ 1074) (10 ^ j) < F64.limit)
    (hbelow : F64.roundMag ((d - 1) * 2 ^ 1074) (10 ^ j) < F64.roundMag (d * 2 ^ 1074) (10 ^ j))
    (habove : F64.roundMag (d * 2 ^ 1074) (10 ^ j) < F64.roundMag ((d + 1) * 2 ^ 1074) (10 ^ j)) :
    reread N (minus d j) = some (F64.neg (F64.div (F64.ofNat d) (F64.pow10 j))) := by
  have hdbl := minus_double d j
  have hdig := ofDigits_decimal d
  rw [minus_num hlim] at hdbl ⊢
  obtain ⟨ds, k, hs, hp⟩ := hN.finite true _ hpos hdbl
  have hid := identifies_minus d j
  obtain ⟨h1, h2⟩ := shortest_unique hs (decimal d) j (decimal_digits _).1 (by rw [hdig]; exact hid)
    (by rw [hdig, hlen]; exact hlow) (by rw [hlen]; decide) (by rw [hdig]; exact h10)
    (by rw [hdig]; exact hbelow) (by rw [hdig]; exact habove)
  rw [hdig] at h1
  subst h2
  have hne : ds ≠ [] := by
    obtain ⟨d, more, rfl, _⟩ := hs.head; simp
  have hle := hs.minimal (decimal d) (-j) (decimal_digits _).1 (by rw [hdig]; exact hid)
  rw [hlen] at hle
  rw [reread, hp, Option.bind_some, hN.reading,
    F64.ofText_layout true ds _ hs.digits hne (by rw [h1]; exact hup) (by omega) (by omega), if_neg (by omega), h1]
  unfold F64.fromParts
  simp only
  rw [if_neg (by omega), show (-(j : Int)).natAbs = j by omega, F64.scaleDown, if_pos hj']
  simp only [if_true]

theorem witness_read : F64.neg (F64.div (F64.ofNat 9200009999999999) (F64.pow10 15)) = minus 920001 5 := by decide +kernel

/-- Every text with the fewest digits for `-9.200009999999999` is read as `-9.20001`. -/
theorem reread_witness {N : NumText F64} (hN : SerdeDoubles N) :
    reread N (minus 9200009999999999 15) = some (minus 920001 5) := by
  rw [reread_minus hN (d := 9200009999999999) (j := 15) (by decide +kernel) (by omega) (by omega) (by omega) (by omega) (by omega)
    (by decide +kernel) (by decide +kernel) (by decide +kernel) (by decide +kernel), witness_read]

/-- C27 is false for scores: there is a score, an ordinary number with 16 digits, such that whatever token carries it,
reading the written token gives a different score.  (serde_json computes `9200009999999999 / 10^15` in doubles, with two
roundings.) -/
theorem C27_false {N : NumText F64} (hN : SerdeDoubles N) (value : List UInt8) (keep : Bool) (style : Json.Style) :
    ∃ x y, IsF64 x ∧ F64.lt y x = true ∧
      (Json.read N (Json.write N style 0 (ScoredToken.toJson ⟨value, x, keep⟩))).bind ScoredToken.ofJson =
        some ⟨value, y, keep⟩ := by
  have h : IsF64 (minus 9200009999999999 15) := minus_double 9200009999999999 15
  refine ⟨minus 9200009999999999 15, minus 920001 5, h, by decide +kernel, ?_⟩
  rw [C27_token_partial N hN.prints, reread_witness hN]
  rfl

/-- There is such an `N`. -/
example : ∃ N : NumText F64, SerdeDoubles N := serdeDoubles_exists

/-- C27 for scores with at most 15 significant digits, between `10^-5` and `10^15` in absolute value, and for zero: writing
a token and reading it back gives exactly the same token. -/
theorem C27_digits_partial {N : NumText F64} (hN : SerdeDoubles N) (style : Json.Style) (t : ScoredToken F64) (s : Bool)
    (n : Nat) (hscore : t.score = .num s n) (hd : IsDouble n)
    (h : n = 0 ∨ 2 ^ 1074 ≤ n * 10 ^ 5 ∧ n < 10 ^ 15 * 2 ^ 1074 ∧
      ∃ ds k, (∀ d ∈ ds, d < 10) ∧ ds.length ≤ 15 ∧ Identifies (ofDigits ds) k n) :
    (Json.read N (Json.write N style 0 t.toJson)).bind ScoredToken.ofJson = some t := by
  have hr : reread N t.score = some t.score := by
    rw [hscore]
    rcases h with rfl | ⟨hlo, hhi, h15⟩
    · exact reread_zero hN s
    · exact reread_exact hN s hd hlo hhi h15
  rw [C27_token_partial N hN.prints, hr]
  rfl

/-- `-9.2` and `-0.00001` are such scores. -/
example : (∃ n, minus 92 1 = .num true n ∧ IsDouble n ∧ 2 ^ 1074 ≤ n * 10 ^ 5 ∧ n < 10 ^ 15 * 2 ^ 1074 ∧
      ∃ ds k, (∀ d ∈ ds, d < 10) ∧ ds.length ≤ 15 ∧ Identifies (ofDigits ds) k n) ∧
    ∃ n, minus 1 5 = .num true n ∧ IsDouble n ∧ 2 ^ 1074 ≤ n * 10 ^ 5 ∧ n < 10 ^ 15 * 2 ^ 1074 ∧
      ∃ ds k, (∀ d ∈ ds, d < 10) ∧ ds.length ≤ 15 ∧ Identifies (ofDigits ds) k n :=
  ⟨minus_ok (by decide) (by decide +kernel) (by decide +kernel),
    minus_ok (by decide) (by decide +kernel) (by decide +kernel)⟩

/-- C27 for all scores between `10^-5` and `10^15` in absolute value: writing a token and reading it back succeeds, the
bytes and the keep flag are the same, and the score has the same sign and differs by a factor of at most `1 ± 2^-51`.
Scores that are not finite make reading fail. -/
theorem C27_close_partial {N : NumText F64} (hN : SerdeDoubles N) (style : Json.Style) (value : List UInt8) (keep : Bool) :
    (∀ (s : Bool) (n : Nat), IsDouble n → 2 ^ 1074 ≤ n * 10 ^ 5 → n < 10 ^ 15 * 2 ^ 1074 →
      ∃ n' : Nat, 2 ^ 51 * ((n' : Int) - n).natAbs ≤ n ∧
        (Json.read N (Json.write N style 0 (ScoredToken.toJson ⟨value, .num s n, keep⟩))).bind ScoredToken.ofJson =
          some ⟨value, .num s n', keep⟩) ∧
    ∀ x, x = .nan ∨ (∃ s, x = .inf s) →
      (Json.read N (Json.write N style 0 (ScoredToken.toJson ⟨value, x, keep⟩))).bind ScoredToken.ofJson = none := by
  constructor
  · intro s n hd hlo hhi
    obtain ⟨n', h1, h2⟩ := reread_close hN s hd hlo hhi
    refine ⟨n', h2, ?_⟩
    rw [C27_token_partial N hN.prints, h1]
    rfl
  · rintro x (rfl | ⟨s, rfl⟩)
    · rw [C27_token_partial N hN.prints, (reread_notFinite hN).1]; rfl
    · rw [C27_token_partial N hN.prints, (reread_notFinite hN).2]; rfl

/-- C28 for the doubles of serde_json: a tokenizer whose special tokens need no escapes, and whose scores are zero or have
at most 15 significant digits and lie between `10^-5` and `10^15` in absolute value, is loaded exactly as it was saved. -/
theorem C28_digits_partial {N : NumText F64} (hN : SerdeDoubles N) (vocab : List (ScoredToken F64))
    (processors : List Processor) (specials : List Str) (ops : List (Tokenizer.Op F64)) :
    let t := Tokenizer.build vocab processors specials ops
    (∀ s ∈ t.specialTokens, ∀ c ∈ s, ¬ (c = '"' ∨ c = '\\' ∨ c.toNat < 32)) →
    (∀ token ∈ t.model.vocab, ∃ s n, token.score = .num s n ∧ IsDouble n ∧
      (n = 0 ∨ 2 ^ 1074 ≤ n * 10 ^ 5 ∧ n < 10 ^ 15 * 2 ^ 1074 ∧
        ∃ ds k, (∀ d ∈ ds, d < 10) ∧ ds.length ≤ 15 ∧ Identifies (ofDigits ds) k n)) →
    Tokenizer.fromStr N (t.toString N) = some t ∧ Tokenizer.fromStr N (t.fileContents N) = some t := by
  intro t hp hs
  refine C28_reload_partial N hN.prints vocab processors specials ops hp ?_
  intro token ht
  obtain ⟨s, n, h1, h2, h3⟩ := hs token ht
  rw [h1]
  rcases h3 with rfl | ⟨h4, h5, h6⟩
  · exact reread_zero hN s
  · exact reread_exact hN s h2 h4 h5 h6

/-- The tokens "a", "b" and "ab" with scores `-9.2`, `-0.00001` and `-9.200009999999999`. -/
def saveVocab : List (ScoredToken F64) :=
  [⟨[97], minus 92 1, false⟩, ⟨[98], minus 1 5, false⟩, ⟨[97, 98], minus 9200009999999999 15, false⟩]

theorem encode_simple (vocab : List (ScoredToken F64)) (norm : UnicodeForm → Str → Str) (rnd : Nat → F64) (ids : List Nat)
    (h : (Model.from_ vocab).encode ['a', 'b'] (.num false 0) (fun _ => .num false 0) = .ok ids) :
    (Tokenizer.new (Model.from_ vocab) [] []).encode norm ['a', 'b'] (.num false 0) rnd = .ok ids := by
  have h1 : splitNext [] ['a', 'b'] = some ((['a', 'b'], false), []) := by decide
  have h2 : splitNext [] [] = none := by decide
  rw [C06_deterministic vocab _ _ _ rnd (by decide +kernel)] at h
  unfold Model.encode at h
  unfold Tokenizer.encode Tokenizer.encodeFuel
  have e : (Tokenizer.new (Model.from_ vocab) [] []).specialTokens = [] := rfl
  simp only [List.length_cons, List.length_nil, Nat.zero_add, Tokenizer.encodeLoop, e, h1, h2]
  have e2 : (Tokenizer.new (Model.from_ vocab) [] []).encodePiece norm (['a', 'b'], false) (.num false 0)
      (fun j => rnd j) = (Model.from_ vocab).encodeR ['a', 'b'] (.num false 0) rnd := rfl
  rw [e2]
  cases hr : (Model.from_ vocab).encodeR ['a', 'b'] (.num false 0) rnd with
  | error e => rw [hr] at h; simp [Except.map] at h
  | ok r =>
    rw [hr] at h
    simp only [Except.map, Except.ok.injEq] at h
    subst h
    rfl

/-- C28 is also false because of scores: saving and loading can change the tokenisation of a text.  The tokenizer with the
three tokens above and no special tokens loads, but encodes "ab" as two tokens instead of one. -/
theorem C28_encode_false {N : NumText F64} (hN : SerdeDoubles N) (norm : UnicodeForm → Str → Str) (rnd : Nat → F64) :
    let t := Tokenizer.build saveVocab [] [] []
    t.encode norm ['a', 'b'] (.num false 0) rnd = .ok [2] ∧
    ∃ u, Tokenizer.fromStr N (t.toString N) = some u ∧ Tokenizer.fromStr N (t.fileContents N) = some u ∧
      u.encode norm ['a', 'b'] (.num false 0) rnd = .ok [0, 1] := by
  have h9 : reread N (minus 92 1) = some (minus 92 1) := by
    obtain ⟨n, h1, h2, h3, h4, h5⟩ := minus_ok (d := 92) (j := 1) (by decide) (by decide +kernel) (by decide +kernel)
    rw [h1]; exact reread_exact hN true h2 h3 h4 h5
  have hs : reread N (minus 1 5) = some (minus 1 5) := by
    obtain ⟨n, h1, h2, h3, h4, h5⟩ := minus_ok (d := 1) (j := 5) (by decide) (by decide +kernel) (by decide +kernel)
    rw [h1]; exact reread_exact hN true h2 h3 h4 h5
  intro t
  refine ⟨encode_simple saveVocab norm rnd _ (by decide +kernel), ?_⟩
  have key : ∀ style, Tokenizer.fromStr N (Json.write N style 0 t.toJson) =
      some (Tokenizer.new (Model.from_
        [⟨[97], minus 92 1, false⟩, ⟨[98], minus 1 5, false⟩, ⟨[97, 98], minus 920001 5, false⟩]) [] []) := by
    intro style
    rw [fromStr_write N hN.prints, if_pos (by intro s hs; have e : t.specialTokens = [] := rfl; rw [e] at hs; simp at hs)]
    have hv : t.model.vocab = saveVocab := rfl
    rw [hv]
    simp only [saveVocab, List.mapM_cons, List.mapM_nil, h9, hs, reread_witness hN]
    rfl
  exact ⟨_, key .compact, key .pretty, encode_simple _ norm rnd _ (by decide +kernel)⟩

end Tokengeex

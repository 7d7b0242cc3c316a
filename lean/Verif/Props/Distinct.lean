import Verif.Props.Number64
import Verif.Proofs.JsonGrammar
import Verif.Model.Cli
import Mathlib.Tactic.FieldSimp
/-
C119: different tokenizers are written as different files.
-/
namespace Tokengeex
open Spec

section
variable {F : Type}

/-- Reading by looking up which of the numbers in `P` is printed like this. -/
noncomputable def readBack (N : NumText F) (P : F → Prop) : NumText F where
  print := N.print
  value tok := by
    classical
    exact if h : ∃ x, P x ∧ N.print x = some tok then some h.choose else none

theorem reread_readBack {N : NumText F} {P : F → Prop} (hprint : ∀ x, P x → ∃ tok, N.print x = some tok)
    (hinj : ∀ x y, P x → P y → N.print x = N.print y → x = y) {x : F} (hx : P x) : reread (readBack N P) x = some x := by
  obtain ⟨tok, ht⟩ := hprint x hx
  unfold reread readBack
  dsimp only
  rw [ht, Option.bind_some]
  have h : ∃ y, P y ∧ N.print y = some tok := ⟨x, hx, ht⟩
  rw [dif_pos h, hinj _ _ h.choose_spec.1 hx (h.choose_spec.2.trans ht.symm)]

theorem seenItems_specials (N : NumText F) (l : List Str) :
    seenItems N (l.map .str : List (Json Str F)) = some (l.map fun s => .str (seenStr s)) := by
  induction l with
  | nil => rw [List.map_nil, seenItems]; rfl
  | cons s l ih => rw [List.map_cons, seenItems, seen, ih]; rfl

theorem seenStr_injective : Function.Injective seenStr := fun _ _ e => congrArg RawStr.text e

theorem mapM_reread {N : NumText F} {l : List (ScoredToken F)} (h : ∀ t ∈ l, reread N t.score = some t.score) :
    (l.mapM fun t => (reread N t.score).map fun y => { t with score := y }) = some l := by
  induction l with
  | nil => rfl
  | cons t l ih =>
    rw [List.mapM_cons, ih fun x hx => h x (List.mem_cons_of_mem _ hx), h t List.mem_cons_self]
    rfl

theorem Tokenizer.seen_injective {N : NumText F} {t u : Tokenizer F} (ht : t.WF) (hu : u.WF)
    (hst : ∀ x ∈ t.model.vocab, reread N x.score = some x.score) (hsu : ∀ x ∈ u.model.vocab, reread N x.score = some x.score)
    (h : seen N t.toJson = seen N u.toJson) : t = u := by
  have hv := asVec_vocab N t.model.vocab
  have hv' := asVec_vocab N u.model.vocab
  have hp := asVec_processors N t.processors
  have hp' := asVec_processors N u.processors
  rw [mapM_reread hst] at hv
  rw [mapM_reread hsu] at hv'
  have some_of : ∀ {α β : Type} {x : Option α} {f : α → Option β} {y : β}, x.bind f = some y → ∃ a, x = some a ∧ f a = some y := by
    intro α β x f y hx
    cases x with
    | none => cases hx
    | some a => exact ⟨a, rfl, hx⟩
  obtain ⟨b, hb, hb2⟩ := some_of hp
  obtain ⟨b', hb', hb2'⟩ := some_of hp'
  obtain ⟨c, hc, hc2⟩ := some_of hv
  obtain ⟨c', hc', hc2'⟩ := some_of hv'
  have ha := seenItems_specials N t.specialTokens
  have ha' := seenItems_specials N u.specialTokens
  have sa : ∀ l : List (Json Str F), seen N (.arr l) = (seenItems N l).map .arr := by intro l; rw [seen]
  unfold toJson at h
  simp only [seen.eq_6, seenMembers, seen_str, Option.bind_some] at h
  rw [hb, hb', hc, hc', sa, sa, ha, ha'] at h
  simp only [Option.map_some, Option.bind_some, Option.some.injEq, Json.obj.injEq, List.cons.injEq, Prod.mk.injEq,
    true_and, and_true, Json.arr.injEq] at h
  obtain ⟨h1, h2, h3⟩ := h
  refine WF.ext ht hu ?_ ?_ ?_
  · subst h3; rw [hc2] at hc2'; exact Option.some.inj hc2'
  · subst h2; rw [hb2] at hb2'; exact Option.some.inj hb2'
  · refine List.map_injective_iff.2 ?_ h1
    intro s s' e
    simp only [Json.str.injEq] at e
    exact seenStr_injective e

/-- Tokenizers whose scores have different texts are written as different texts. -/
theorem Tokenizer.write_injective {N : NumText F} (hN : PrintsNumbers N) {P : F → Prop}
    (hprint : ∀ x, P x → ∃ tok, N.print x = some tok) (hinj : ∀ x y, P x → P y → N.print x = N.print y → x = y)
    {t u : Tokenizer F} (ht : t.WF) (hu : u.WF) (hst : ∀ x ∈ t.model.vocab, P x.score) (hsu : ∀ x ∈ u.model.vocab, P x.score)
    {style style' : Json.Style} (h : Json.write N style 0 t.toJson = Json.write N style' 0 u.toJson) : t = u := by
  have hN' : PrintsNumbers (readBack N P) := hN
  rw [Json.write_print (N := N) (M := readBack N P) rfl, Json.write_print (N := N) (M := readBack N P) rfl] at h
  have e1 := Json.read_write (readBack N P) hN' style t.toJson (by have := nesting_toJson t; omega)
  have e2 := Json.read_write (readBack N P) hN' style' u.toJson (by have := nesting_toJson u; omega)
  rw [h, e2] at e1
  exact seen_injective ht hu (fun x hx => reread_readBack hprint hinj (hst x hx))
    (fun x hx => reread_readBack hprint hinj (hsu x hx)) e1.symm
end

/-! ## Doubles -/

/-- The size of the number a text stands for. -/
def tokSize (t : NumTok) : ℚ :=
  (ofDigits (t.int ++ t.frac.getD []) : ℚ) *
    10 ^ ((match t.exp with
      | none => 0
      | some (s, ds) => if s then (ofDigits ds : ℤ) else -(ofDigits ds : ℤ)) - ((t.frac.getD []).length : ℤ))

theorem expPart_value (e : Int) :
    (if (F64.expPart e).1 then (ofDigits (F64.expPart e).2 : ℤ) else -(ofDigits (F64.expPart e).2 : ℤ)) = e := by
  unfold F64.expPart
  have : ofDigits (decimal e.natAbs) = e.natAbs := (decimal_digits e.natAbs).2.2.2
  dsimp only
  rw [this]
  by_cases h : 0 ≤ e
  · rw [if_pos (by simpa using h)]; omega
  · rw [if_neg (by simpa using h)]; omega

theorem tokSize_layout (s : Bool) (ds : List Nat) (k : Int) : tokSize (F64.layout s ds k) = (ofDigits ds : ℚ) * 10 ^ k := by
  unfold F64.layout
  dsimp only
  have h10 : (10 : ℚ) ≠ 0 := by norm_num
  split
  · rename_i h
    obtain ⟨m, rfl⟩ := Int.eq_ofNat_of_zero_le h.1
    simp only [tokSize, Option.getD_some, List.length_singleton]
    rw [ofDigits_append, ofDigits_append, ofDigits_zeros]
    simp only [ofDigits, List.foldl_cons, List.foldl_nil, List.length_replicate, List.length_singleton, Int.toNat_natCast]
    push_cast
    rw [show (10 : ℚ) ^ (-1 : ℤ) = 1 / 10 by norm_num, zpow_natCast]
    ring
  · split
    · rename_i h
      simp only [tokSize, Option.getD_some, List.take_append_drop, List.length_drop]
      congr 2
      omega
    · split
      · rename_i h
        simp only [tokSize, Option.getD_some, List.length_append, List.length_replicate]
        rw [ofDigits_append, ofDigits_append, ofDigits_zeros]
        simp only [show ofDigits [0] = 0 from rfl, Nat.zero_mul, Nat.zero_add]
        congr 2
        push_cast
        omega
      · split
        · rename_i h
          simp only [tokSize, Option.getD_none, List.append_nil, List.length_nil]
          rw [expPart_value, h]
          congr 2
          push_cast
          ring
        · rename_i h
          simp only [tokSize, Option.getD_some, List.take_append_drop, List.length_drop]
          rw [expPart_value]
          by_cases h0 : ds.length = 0
          · rw [List.length_eq_zero_iff.1 h0]
            simp [ofDigits]
          congr 2
          omega

theorem layout_negative (s : Bool) (ds : List Nat) (k : Int) : (F64.layout s ds k).negative = s := by
  unfold F64.layout
  dsimp only
  split
  · rfl
  · split
    · rfl
    · split
      · rfl
      · split <;> rfl

theorem size_pos {ds : List Nat} (hd : ∃ d more, ds = d :: more ∧ d ≠ 0) : 0 < ofDigits ds := by
  obtain ⟨d, more, rfl, h⟩ := hd
  rw [ofDigits_cons]
  have := Nat.mul_pos (Nat.pos_of_ne_zero h) (Nat.pow_pos (n := more.length) (show 0 < 10 by omega))
  omega

theorem identifies_congr {d d' n n' : Nat} {k k' : Int} (h : Identifies d k n) (h' : Identifies d' k' n')
    (e : (d : ℚ) * 10 ^ k = (d' : ℚ) * 10 ^ k') : n = n' := by
  unfold Identifies at h h'
  rw [← h, ← h']
  apply F64.roundMag_congr (Nat.pow_pos (by omega)) (Nat.pow_pos (by omega))
  have h10 : (10 : ℚ) ≠ 0 := by norm_num
  have split : ∀ k : Int, (10 : ℚ) ^ k * 10 ^ (-k).toNat = 10 ^ k.toNat := by
    intro k
    rw [← zpow_natCast, ← zpow_natCast, ← zpow_add₀ h10]
    congr 1
    omega
  have main : d * 10 ^ k.toNat * 10 ^ (-k').toNat = d' * 10 ^ k'.toNat * 10 ^ (-k).toNat := by
    have : ((d * 10 ^ k.toNat * 10 ^ (-k').toNat : ℕ) : ℚ) = ((d' * 10 ^ k'.toNat * 10 ^ (-k).toNat : ℕ) : ℚ) := by
      push_cast
      rw [← split k, ← split k']
      calc (d : ℚ) * (10 ^ k * 10 ^ (-k).toNat) * 10 ^ (-k').toNat
          = (d : ℚ) * 10 ^ k * (10 ^ (-k).toNat * 10 ^ (-k').toNat) := by ring
        _ = (d' : ℚ) * 10 ^ k' * (10 ^ (-k).toNat * 10 ^ (-k').toNat) := by rw [e]
        _ = _ := by ring
    exact_mod_cast this
  generalize 2 ^ 1074 = U
  calc d * 10 ^ k.toNat * U * 10 ^ (-k').toNat = d * 10 ^ k.toNat * 10 ^ (-k').toNat * U := by ring
    _ = d' * 10 ^ k'.toNat * 10 ^ (-k).toNat * U := by rw [main]
    _ = _ := by ring

theorem print_injective {N : NumText F64} (hN : SerdeDoubles N) (x y : F64) (hx : Spec.Finite x) (hy : Spec.Finite y)
    (h : N.print x = N.print y) : x = y := by
  cases x with
  | nan => exact hx.elim
  | inf s => exact hx.elim
  | num s n =>
    cases y with
    | nan => exact hy.elim
    | inf s => exact hy.elim
    | num s' n' =>
      have parts : ∀ s n, IsDouble n → ∃ tok, N.print (.num s n) = some tok ∧ tok.negative = s ∧
          ((n = 0 ∧ tokSize tok = 0) ∨ ∃ d k, 0 < d ∧ Identifies d k n ∧ tokSize tok = (d : ℚ) * 10 ^ k) := by
        intro s n hn
        by_cases h0 : n = 0
        · subst h0
          refine ⟨_, hN.zero s, rfl, .inl ⟨rfl, ?_⟩⟩
          simp [tokSize, ofDigits]
        · obtain ⟨ds, k, hs, hp⟩ := hN.finite s n h0 hn
          exact ⟨_, hp, layout_negative s ds k, .inr ⟨ofDigits ds, k, size_pos hs.head, hs.identifies, tokSize_layout s ds k⟩⟩
      obtain ⟨tok, h1, h2, h3⟩ := parts s n hx
      obtain ⟨tok', h1', h2', h3'⟩ := parts s' n' hy
      rw [h1, h1', Option.some.injEq] at h
      subst h
      have hs : s = s' := h2.symm.trans h2'
      have pos : ∀ (d : Nat) (k : Int), 0 < d → (d : ℚ) * 10 ^ k ≠ 0 := by
        intro d k hd
        have hd' : (d : ℚ) ≠ 0 := by exact_mod_cast Nat.pos_iff_ne_zero.1 hd
        exact mul_ne_zero hd' (zpow_ne_zero k (by norm_num))
      have hn : n = n' := by
        rcases h3 with ⟨rfl, h4⟩ | ⟨d, k, hd, hi, h4⟩
        · rcases h3' with ⟨rfl, h5⟩ | ⟨d, k, hd, hi, h5⟩
          · rfl
          · exact absurd (h5.symm.trans h4) (pos d k hd)
        · rcases h3' with ⟨rfl, h5⟩ | ⟨d', k', hd', hi', h5⟩
          · exact absurd (h4.symm.trans h5) (pos d k hd)
          · exact identifies_congr hi hi' (h4.symm.trans h5)
      rw [hs, hn]

theorem print_some {N : NumText F64} (hN : SerdeDoubles N) (x : F64) (hx : Spec.Finite x) : ∃ tok, N.print x = some tok := by
  cases x with
  | nan => exact hx.elim
  | inf s => exact hx.elim
  | num s n =>
    by_cases h0 : n = 0
    · subst h0; exact ⟨_, hN.zero s⟩
    · obtain ⟨ds, k, _, hp⟩ := hN.finite s n h0 hx
      exact ⟨_, hp⟩

/-! ## The property -/

/-- C119: tokenizers with finite scores, built by any calls, that are written as the same text are the same tokenizer,
whichever of the two layouts each was written in.  (Scores need not survive being read back, see C27, and special tokens may
need escapes, see C28.) -/
theorem C119_text {N : NumText F64} (hN : SerdeDoubles N) (vocab vocab' : List (ScoredToken F64))
    (processors processors' : List Processor) (specials specials' : List Str) (ops ops' : List (Tokenizer.Op F64)) :
    let t := Tokenizer.build vocab processors specials ops
    let u := Tokenizer.build vocab' processors' specials' ops'
    (∀ token ∈ t.model.vocab, Spec.Finite token.score) → (∀ token ∈ u.model.vocab, Spec.Finite token.score) →
    (t.toString N = u.toString N → t = u) ∧ (t.fileContents N = u.fileContents N → t = u) ∧
      (t.toString N = u.fileContents N → t = u) := by
  intro t u ht hu
  have key : ∀ style style', Json.write N style 0 t.toJson = Json.write N style' 0 u.toJson → t = u := fun style style' h =>
    Tokenizer.write_injective hN.prints (P := Spec.Finite) (print_some hN) (print_injective hN) (Tokenizer.wf_build ..)
      (Tokenizer.wf_build ..) ht hu h
  exact ⟨key _ _, key _ _, key _ _⟩

/-- C119 for the bytes of the file: if saving two tokenizers with finite scores leaves the same bytes, they were the same. -/
theorem C119_bytes {N : NumText F64} (hN : SerdeDoubles N) (vocab vocab' : List (ScoredToken F64))
    (processors processors' : List Processor) (specials specials' : List Str) (ops ops' : List (Tokenizer.Op F64)) :
    let t := Tokenizer.build vocab processors specials ops
    let u := Tokenizer.build vocab' processors' specials' ops'
    (∀ token ∈ t.model.vocab, Spec.Finite token.score) → (∀ token ∈ u.model.vocab, Spec.Finite token.score) →
    Cli.saved N t = Cli.saved N u → t = u := by
  intro t u ht hu h
  exact (C119_text hN vocab vocab' processors processors' specials specials' ops ops' ht hu).2.1 (enc_injective h)

/-- The scores must be finite: a score that is not a number, and the two infinite ones, are written alike. -/
theorem C119_not_finite {N : NumText F64} (hN : SerdeDoubles N) (value : List UInt8) (keep : Bool) :
    let one (x : F64) := Tokenizer.build [⟨value, x, keep⟩] [] [] []
    Cli.saved N (one .nan) = Cli.saved N (one (.inf false)) ∧ Cli.saved N (one (.inf true)) = Cli.saved N (one (.inf false)) ∧
      one .nan ≠ one (.inf false) ∧ one (.inf true) ≠ one (.inf false) := by
  intro one
  have same : ∀ x y : F64, N.print x = none → N.print y = none → Cli.saved N (one x) = Cli.saved N (one y) := by
    intro x y hx hy
    have hw : ∀ style d, Json.write N style d (.num x) = Json.write N style d (.num y) := by
      intro style d
      simp only [Json.write, hx, hy]
    show enc (Json.write N .pretty 0 (one x).toJson) = enc (Json.write N .pretty 0 (one y).toJson)
    congr 1
    have hv : ∀ z, (one z).model.vocab = [⟨value, z, keep⟩] := fun z => rfl
    unfold Tokenizer.toJson
    rw [hv, hv]
    simp only [List.map_cons, List.map_nil, ScoredToken.toJson]
    cases fromUtf8 value <;> cases keep <;>
      simp [Json.write, Json.writeMembers, Json.writeItems, hx, hy] <;> rfl
  have apart : ∀ x y : F64, one x = one y → x = y := by
    intro x y h
    have := congrArg (fun t => t.model.vocab) h
    have hx : ∀ z, (one z).model.vocab = [⟨value, z, keep⟩] := fun z => rfl
    simp only [hx, List.cons.injEq, ScoredToken.mk.injEq] at this
    exact this.1.2.1
  refine ⟨same _ _ hN.notFinite.1 (hN.notFinite.2 _), same _ _ (hN.notFinite.2 _) (hN.notFinite.2 _), ?_, ?_⟩
  · intro h; cases apart _ _ h
  · intro h; cases apart _ _ h

example : ∃ N : NumText F64, SerdeDoubles N := serdeDoubles_exists

/-- Scores that are finite doubles, and a special token that needs an escape. -/
example : (∀ token ∈ (Tokenizer.build saveVocab [] [['<', '"', '>']] []).model.vocab, Spec.Finite token.score) := by
  intro token h
  have hv : (Tokenizer.build saveVocab [] [['<', '"', '>']] []).model.vocab = saveVocab := rfl
  rw [hv] at h
  simp only [saveVocab, List.mem_cons, List.not_mem_nil, or_false] at h
  rcases h with rfl | rfl | rfl
  · have h1 : F64.roundMag (92 * 2 ^ 1074) (10 ^ 1) < F64.limit := by decide +kernel
    dsimp only
    rw [minus_num h1]
    exact F64.isDouble_roundMag (by decide) h1
  · have h1 : F64.roundMag (1 * 2 ^ 1074) (10 ^ 5) < F64.limit := by decide +kernel
    dsimp only
    rw [minus_num h1]
    exact F64.isDouble_roundMag (by decide) h1
  · have h1 : F64.roundMag (9200009999999999 * 2 ^ 1074) (10 ^ 15) < F64.limit := by decide +kernel
    dsimp only
    rw [minus_num h1]
    exact F64.isDouble_roundMag (by decide) h1

end Tokengeex

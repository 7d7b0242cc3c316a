import Verif.Props.Dropout
import Verif.Props.Locality
/-
C118: how often dropout leaves an encoding as it is.
-/
namespace Tokengeex
open Spec ScoreOps
variable {F : Type} [ScoreOps F]

namespace Model

section
variable {e : Nat → Nat → Option Nat} {w : Nat → F} (hlt : ∀ i s id, e s i = some id → s < i)
include hlt

theorem gTable_first {good tok : F → Prop} (L : ScoreLaws F good tok) (hw : ∀ id, tok (w id)) (i p : Nat) :
    ∀ s' id', s' < p → e s' i = some id' → (gTable e w s' s').start.isSome = true →
      (gTable e w p i).start.isSome = true ∧
      lt (gTable e w p i).score (add (gTable e w s' s').score (w id')) = false ∧
      ∀ s, (gTable e w p i).start = some s → s' < s →
        lt (add (gTable e w s' s').score (w id')) (gTable e w p i).score = true := by
  have hg := gTable_good (e := e) L hw
  have hgc : ∀ s' id', good (add (gTable e w s' s').score (w id')) := fun s' id' => L.add_good (hg _ _) (hw _)
  induction p with
  | zero => intro s' id' h; omega
  | succ p ih =>
    intro s' id' hs' he' hr'
    have hk : gTable e w (p + 1) i = if (gTable e w p p).start.isNone then gTable e w p i
      else match e p i with
        | none => gTable e w p i
        | some id => updNode true w p (gTable e w p p) (gTable e w p i) id := by rw [gTable]; cases e p i <;> rfl
    by_cases hp : (gTable e w p p).start.isNone = true
    · rw [if_pos hp] at hk
      have hne : s' ≠ p := by
        rintro rfl
        cases h : (gTable e w s' s').start <;> simp [h] at hp hr'
      rw [hk]
      exact ih s' id' (by omega) he' hr'
    · rw [if_neg hp] at hk
      cases hep : e p i with
      | none =>
        rw [hep] at hk
        have hne : s' ≠ p := by rintro rfl; rw [he'] at hep; simp at hep
        rw [hk]
        exact ih s' id' (by omega) he' hr'
      | some idp =>
        rw [hep] at hk
        dsimp only at hk
        unfold updNode at hk
        simp only [Bool.true_and] at hk
        by_cases hc : ((gTable e w p i).start.isNone ||
            lt (gTable e w p i).score (add (gTable e w p p).score (w idp))) = true
        · rw [if_pos hc] at hk
          rw [hk]
          simp only [Option.isSome_some, Option.some.injEq, true_and]
          by_cases hsp : s' = p
          · subst hsp
            rw [hep] at he'
            simp only [Option.some.injEq] at he'
            subst he'
            exact ⟨L.irrefl (hgc _ _), fun s h1 h2 => by omega⟩
          · obtain ⟨h1, h2, _⟩ := ih s' id' (by omega) he' hr'
            have hlt : lt (gTable e w p i).score (add (gTable e w p p).score (w idp)) = true := by
              rw [Bool.or_eq_true] at hc
              rcases hc with hc | hc
              · cases h : (gTable e w p i).start <;> simp [h] at hc h1
              · exact hc
            have h3 := L.lt_of_le_of_lt (hg _ _) (hgc _ _) (hgc s' id') h2 hlt
            exact ⟨L.asymm (hgc _ _) (hgc _ _) h3, fun s _ _ => h3⟩
        · rw [if_neg hc] at hk
          rw [hk]
          simp only [Bool.or_eq_true, not_or, Bool.not_eq_true] at hc
          by_cases hsp : s' = p
          · subst hsp
            rw [hep] at he'
            simp only [Option.some.injEq] at he'
            subst he'
            refine ⟨?_, hc.2, ?_⟩
            · cases h : (gTable e w s' i).start <;> simp [h] at hc ⊢
            · intro s h1 h2
              have := ((gTable_sound (w := w) hlt s').2 i s (by have := hlt _ _ _ hep; omega) h1).1
              omega
          · exact ih s' id' (by omega) he' hr'

theorem finish_leftmost {good tok : F → Prop} (L : ScoreLaws F good tok) (hw : ∀ id, tok (w id)) (n : Nat) {ids : List Nat}
    (h : finish n (gTable e w n) = .ok ids) : Leftmost e w n ids := by
  obtain ⟨hl, hdp⟩ := tbl_map (n := n) (gTable e w n)
  have hF := gTable_final (w := w) hlt n
  have hg := gTable_good (e := e) L hw
  have hstart : ∀ i s, i ≤ n → (gTable e w n i).start = some s → s ≤ n := by
    intro i s hi hst
    rcases Nat.eq_zero_or_pos i with rfl | hpos
    · rw [hF.zero] at hst; simp only [Option.some.injEq] at hst; omega
    · have := hF.lt _ _ _ (hF.step i s hpos hst).2.1; omega
  obtain ⟨ids', h1, h2⟩ := backtrack_tchain hl hdp hstart _ _ _ _ (Nat.le_refl _) h
  simp only [List.append_nil] at h1
  subst h1
  have key : ∀ {i : Nat} {ids : List Nat}, TChain (gTable e w n) i ids → i ≤ n →
      Leftmost e w i ids ∧ sumScore w ids = (gTable e w n i).score := by
    intro i ids hc
    induction hc with
    | nil => intro _; exact ⟨.nil, by simp [sumScore, hF.zero]⟩
    | @snoc s i ids hc hpos hst ih =>
      intro hi
      obtain ⟨h3, h4, h5⟩ := hF.step i s hpos hst
      have hsi := hF.lt _ _ _ h4
      obtain ⟨h6, h7⟩ := ih (by omega)
      have hsum : sumScore w (ids ++ [(gTable e w n i).id]) = (gTable e w n i).score := by
        rw [sumScore_snoc, h7, h5]
      refine ⟨.snoc h6 h4 ?_, hsum⟩
      intro s' ids' id' hc' he'
      have hs'i := hlt _ _ _ he'
      rw [hsum, sumScore_snoc]
      obtain ⟨hr, hdom, hgs⟩ := gTable_dominates hlt L hw hc'
      obtain ⟨_, h8, h9⟩ := gTable_first hlt L hw i i s' id' hs'i he' hr
      have hst' := gTable_stable (w := w) hlt (i := i) hi
      rw [hst'] at hst ⊢
      have hmono := L.add_mono (hg s' s') hgs (hw id') hdom
      refine ⟨L.trans (hg _ _) (L.add_good (hg _ _) (hw id')) (L.add_good hgs (hw id')) h8 hmono, ?_⟩
      intro hlt
      exact L.lt_of_le_of_lt (L.add_good (hg _ _) (hw id')) (hg _ _) (L.add_good hgs (hw id')) hmono (h9 s hst hlt)
  exact (key h2 (Nat.le_refl _)).1

end

/-- Fewer edges, but those of the result are left: the result stays. -/
theorem Leftmost.sub {e e' : Nat → Nat → Option Nat} {w : Nat → F} (hsub : ∀ s i id, e' s i = some id → e s i = some id)
    (hu : ∀ ids s s', Chain e s ids → Chain e s' ids → s = s') {i : Nat} {ids : List Nat} (h : Leftmost e w i ids)
    (hc : Chain e' i ids) : Leftmost e' w i ids := by
  have mono : ∀ {i ids}, Chain e' i ids → Chain e i ids := by
    intro i ids h
    induction h with
    | nil => exact .nil
    | snoc _ he ih => exact .snoc ih (hsub _ _ _ he)
  induction h with
  | nil => exact .nil
  | @snoc s i id ids h1 he hd ih =>
    generalize hl : ids ++ [id] = l at hc
    cases hc with
    | nil => simp at hl
    | @snoc s'' _ id' ids' hc' he' =>
      obtain ⟨rfl, e1⟩ := List.append_inj' hl rfl
      obtain rfl : id = id' := by simpa using e1
      obtain rfl := hu _ _ _ h1.chain (mono hc')
      exact .snoc (ih hc') he' fun s' ids' id' hc'' he'' => hd s' ids' id' (mono hc'') (hsub _ _ _ he'')

/-- The places of the tokens, laid out from `pos` on. -/
def layout (vocab : List (ScoredToken F)) : Nat → List Nat → List (Nat × Nat)
  | _, [] => []
  | pos, id :: ids => (pos, pos + lenOf vocab id) :: layout vocab (pos + lenOf vocab id) ids

omit [ScoreOps F] in
theorem avoids_iff (vocab : List (ScoredToken F)) (struck : Nat → Nat → Prop) : ∀ (ids : List Nat) (pos : Nat),
    Avoids vocab struck pos ids ↔ ∀ x ∈ layout vocab pos ids, ¬ struck x.1 x.2 := by
  intro ids
  induction ids with
  | nil => intro pos; simp [Avoids, layout]
  | cons id ids ih => intro pos; simp [Avoids, layout, ih]

omit [ScoreOps F] in
theorem layout_length (vocab : List (ScoredToken F)) : ∀ (ids : List Nat) (pos : Nat),
    ((layout vocab pos ids).filter fun x => decide (x.1 + 1 < x.2)).length = ids.countP fun id => decide (1 < lenOf vocab id) := by
  intro ids
  induction ids with
  | nil => intro pos; rfl
  | cons id ids ih =>
    intro pos
    rw [layout, List.filter_cons, List.countP_cons]
    by_cases h : 1 < lenOf vocab id
    · rw [if_pos (decide_eq_true (by dsimp only; omega)), List.length_cons, ih, if_pos (decide_eq_true h)]
    · rw [if_neg (by simpa using (by omega : pos + lenOf vocab id ≤ pos + 1)), ih, if_neg (by simpa using h)]; rfl

omit [ScoreOps F] in
theorem layout_ge (vocab : List (ScoredToken F)) : ∀ (ids : List Nat) (pos : Nat), ∀ x ∈ layout vocab pos ids, pos ≤ x.1 := by
  intro ids
  induction ids with
  | nil => intro pos x hx; cases hx
  | cons id ids ih =>
    intro pos x hx
    rcases List.mem_cons.1 hx with rfl | hx
    · exact Nat.le_refl _
    · have := ih _ x hx; omega

omit [ScoreOps F] in
theorem layout_nodup (vocab : List (ScoredToken F)) : ∀ (ids : List Nat) (pos : Nat),
    ((layout vocab pos ids).filter fun x => decide (x.1 + 1 < x.2)).Nodup := by
  intro ids
  induction ids with
  | nil => intro pos; exact List.nodup_nil
  | cons id ids ih =>
    intro pos
    rw [layout, List.filter_cons]
    split
    · rename_i h
      refine List.nodup_cons.2 ⟨fun hm => ?_, ih _⟩
      have h1 := layout_ge vocab ids _ _ (List.mem_filter.1 hm).1
      have h2 : pos + 1 < pos + lenOf vocab id := by simpa using h
      dsimp only at h1
      omega
    · exact ih _

omit [ScoreOps F] in
theorem layout_occurs (vocab : List (ScoredToken F)) : ∀ (ids : List Nat) (pre bs : List UInt8), Spells vocab ids bs →
    ∀ x ∈ layout vocab pre.length ids, x.1 + 1 < x.2 → Occurs vocab (pre ++ bs) x.1 x.2 := by
  intro ids
  induction ids with
  | nil => intro pre bs _ x hx; cases hx
  | cons id ids ih =>
    intro pre bs hs x hx hlt
    obtain ⟨t, r, h1, h2, rfl⟩ := spells_cons.1 hs
    have hl : lenOf vocab id = t.value.length := by unfold lenOf; rw [h1]
    rcases List.mem_cons.1 hx with rfl | hx
    · dsimp only at hlt ⊢
      refine ⟨by omega, by simp only [List.length_append, hl]; omega, t, List.mem_of_getElem? h1, ?_⟩
      rw [List.drop_left, Nat.add_sub_cancel_left, hl, List.take_left]
    · have := ih (pre ++ t.value) r h2 x (by rw [List.length_append, ← hl]; exact hx) hlt
      rwa [List.append_assoc] at this

end Model

/-! ### Chances -/

theorem chance_congr (p : ℝ) (n : Nat) {A B : (Nat → Bool) → Prop} (h : ∀ c, A c ↔ B c) : chance p n A = chance p n B := by
  have : A = B := funext fun c => propext (h c)
  rw [this]

theorem chance_succ (p : ℝ) (n : Nat) (A : (Nat → Bool) → Prop) : chance p (n + 1) A =
    p * chance p n (fun c => A (Coins.push true c)) + (1 - p) * chance p n (fun c => A (Coins.push false c)) := rfl

theorem chance_never (p : ℝ) (n : Nat) {A : (Nat → Bool) → Prop} (h : ∀ c, ¬ A c) : chance p n A = 0 := by
  have : chance p n A = mean p n fun _ => 0 := by
    unfold chance
    congr 1
    funext c
    exact if_neg (h c)
  rw [this, Coins.mean_const]

open Coins in
/-- The chance that no coin of some marked ones shows `true`. -/
theorem chance_none {α : Type} (p : ℝ) (L : α → Prop) [DecidablePred L] : ∀ E : List α,
    chance p E.length (fun c => ∀ k x, E[k]? = some x → L x → c k = false) = (1 - p) ^ E.countP (fun x => decide (L x)) := by
  intro E
  induction E with
  | nil =>
    unfold chance
    rw [List.length_nil, List.countP_nil, pow_zero]
    exact (if_pos (by simp))
  | cons a E ih =>
    rw [List.length_cons, chance_succ, List.countP_cons]
    have hf : ∀ c, (∀ k x, (a :: E)[k]? = some x → L x → push false c k = false) ↔ ∀ k x, E[k]? = some x → L x → c k = false := by
      intro c
      constructor
      · exact fun h k x hk hx => h (k + 1) x hk hx
      · intro h k x hk hx
        cases k with
        | zero => rfl
        | succ k => exact h k x hk hx
    rw [chance_congr p _ hf, ih]
    by_cases ha : L a
    · rw [chance_never p _ (fun c h => by have := h 0 a rfl ha; cases this), if_pos (decide_eq_true ha), pow_succ]
      ring
    · rw [chance_congr p _ (B := fun c => ∀ k x, E[k]? = some x → L x → c k = false), ih,
        if_neg (show ¬ decide (L a) = true by simpa using ha), Nat.add_zero]
      · ring
      · intro c
        constructor
        · exact fun h k x hk hx => h (k + 1) x hk hx
        · intro h k x hk hx
          cases k with
          | zero =>
            obtain rfl : a = x := by simpa using hk
            exact absurd hx ha
          | succ k => exact h k x hk hx

open Coins in
theorem mean_le (p : ℝ) (h0 : 0 ≤ p) (h1 : p ≤ 1) : ∀ (n : Nat) (f g : (Nat → Bool) → ℝ), (∀ c, f c ≤ g c) → mean p n f ≤ mean p n g := by
  intro n
  induction n with
  | zero => intro f g h; exact h _
  | succ n ih =>
    intro f g h
    rw [mean_succ, mean_succ]
    have a := mul_le_mul_of_nonneg_left (ih _ _ fun c => h (push true c)) h0
    have b := mul_le_mul_of_nonneg_left (ih _ _ fun c => h (push false c)) (by linarith : (0 : ℝ) ≤ 1 - p)
    exact add_le_add a b

open Coins in
/-- The chance that all coins show `true`. -/
theorem chance_all (p : ℝ) : ∀ n, chance p n (fun c => ∀ k < n, c k = true) = p ^ n := by
  intro n
  induction n with
  | zero => unfold chance; rw [pow_zero]; exact if_pos (by simp)
  | succ n ih =>
    rw [chance_succ, chance_congr p n (B := fun c => ∀ k < n, c k = true), ih,
      chance_never p n (fun c h => by have := h 0 (by omega); cases this), pow_succ]
    · ring
    · intro c
      constructor
      · exact fun h k hk => h (k + 1) (by omega)
      · intro h k hk
        cases k with
        | zero => rfl
        | succ k => exact h k (by omega)

theorem chance_le (p : ℝ) (h0 : 0 ≤ p) (h1 : p ≤ 1) (n : Nat) {A B : (Nat → Bool) → Prop} (h : ∀ c, A c → B c) :
    chance p n A ≤ chance p n B := by
  unfold chance
  refine mean_le p h0 h1 n _ _ fun c => ?_
  by_cases ha : A c
  · rw [if_pos ha, if_pos (h c ha)]
  · rw [if_neg ha]
    split <;> norm_num

/-! ### C118 -/

open Model in
/-- What remains with struck places is the undisturbed encoding exactly if none of its places is struck. -/
theorem bestWithout_same {good tok : F → Prop} (laws : ScoreLaws F good tok) (vocab : List (ScoredToken F))
    (hgood : ∀ t ∈ vocab, tok t.score) (s : Str) {dropout : F} (hd : le dropout zero = true) (rnd : Nat → F) {ids : List Nat}
    (h : (from_ vocab).encode s dropout rnd = .ok ids) (struck : Nat → Nat → Prop) (hs : ∀ i j, struck i j → i + 1 < j) :
    bestWithout vocab (enc s) struck = .ok ids ↔ Avoids vocab struck 0 ids := by
  classical
  have hm := wf_from vocab
  constructor
  · intro hb
    have := bestWithout_best laws vocab hgood (enc s) struck hs
    rw [hb] at this
    exact this.1.2.2
  · intro ha
    obtain ⟨k, hk⟩ := encode_ok_iff.1 h
    have hl := encodeBytes_leftmost laws hm hgood hd rnd (enc s) hk
    have hc : Chain ((from_ vocab).keptEdge (enc s) fun i j => decide (struck i j)) (enc s).length ids :=
      (chain_kept (fun i j => decide_eq_true_iff) hs).2 ⟨hl.chain, ha⟩
    have hl' := hl.sub (e' := (from_ vocab).keptEdge (enc s) fun i j => decide (struck i j)) (by
      intro s i id he
      unfold keptEdge at he
      split at he
      · exact he
      · cases he) (fun ids s s' h1 h2 => by rw [← chain_length h1, chain_length h2]) hc
    have hb : bestWithout vocab (enc s) struck = finish (enc s).length (gTable ((from_ vocab).keptEdge (enc s)
        fun i j => decide (struck i j)) (scoreOf vocab) (enc s).length) := by
      unfold bestWithout
      congr
    rw [hb]
    rcases finish_best (e := (from_ vocab).keptEdge (enc s) fun i j => decide (struck i j)) (w := scoreOf vocab) keptEdge_lt laws
      (good_scoreOf laws hgood) (enc s).length with ⟨ids', h1, _, _⟩ | ⟨_, h2⟩
    · rw [h1, Leftmost.unique keptEdge_lt (finish_leftmost keptEdge_lt laws (good_scoreOf laws hgood) _ h1) hl']
    · exact absurd ⟨ids, hc⟩ h2

open Model in
/-- **C118** `encode` with dropout returns the encoding that it returns without dropout with chance `(1 - p) ^ m`, where `m` is the
number of its tokens of several bytes: as if a coin were thrown for each of these tokens and for nothing else.  (Draws as in C88.)
This holds also if several segmentations are best, and with floating-point scores. -/
theorem C118_same (good tok : F → Prop) (laws : ScoreLaws F good tok) (vocab : List (ScoredToken F))
    (hgood : ∀ t ∈ vocab, tok t.score) (s : Str) (nodrop : F) (hnodrop : le nodrop zero = true) (rnd₀ : Nat → F) (ids : List Nat)
    (h : (from_ vocab).encode s nodrop rnd₀ = .ok ids) (dropout : F) (hd : le dropout zero = false) (p : ℝ)
    (rnd : (Nat → Bool) → Nat → F) (hr : ∀ c k, lt dropout (rnd c k) = !c k) :
    ∃ n₀, ∀ n, n₀ ≤ n →
      chance p n (fun c => (from_ vocab).encode s dropout (rnd c) = .ok ids) =
        (1 - p) ^ ids.countP (fun id => decide (1 < lenOf vocab id)) := by
  obtain ⟨n₀, hn⟩ := encode_chance vocab s dropout hd p rnd hr
  refine ⟨n₀, fun n hle => ?_⟩
  rw [hn n hle (fun r => r = .ok ids)]
  generalize hE : (allEntries (from_ vocab) (enc s)).filterMap placeOf = E
  have hmem : ∀ i j, (i, j) ∈ E ↔ Occurs vocab (enc s) i j ∧ i + 1 < j := by rw [← hE]; exact mem_places vocab _
  have hnd : E.Nodup := by rw [← hE]; exact places_nodup vocab _
  have hs := (C01_encode_lossless vocab s nodrop rnd₀ ids h).2
  have hocc := layout_occurs vocab ids [] (enc s) hs
  rw [List.nil_append] at hocc
  rw [chance_congr p _ (B := fun c => ∀ k x, E[k]? = some x → x ∈ (layout vocab 0 ids).filter (fun x => decide (x.1 + 1 < x.2)) → c k = false),
    chance_none]
  · rw [← layout_length vocab ids 0]
    congr 1
    rw [List.countP_eq_length_filter]
    refine List.Perm.length_eq ((List.perm_ext_iff_of_nodup (hnd.filter _) (layout_nodup vocab ids 0)).2 ?_)
    rintro ⟨i, j⟩
    rw [List.mem_filter, decide_eq_true_iff]
    constructor
    · exact fun h => h.2
    · intro h
      obtain ⟨h1, h2⟩ := List.mem_filter.1 h
      have h2 : i + 1 < j := by simpa using h2
      exact ⟨(hmem i j).2 ⟨hocc (i, j) h1 h2, h2⟩, h⟩
  · intro c
    have hch : ∀ i j, Chosen E c i j → i + 1 < j := by
      rintro i j ⟨k, hk, _⟩
      exact ((hmem i j).1 (List.mem_of_getElem? hk)).2
    rw [bestWithout_same laws vocab hgood s hnodrop rnd₀ h _ hch, avoids_iff]
    constructor
    · intro ha k x hk hx
      cases hc : c k with
      | false => rfl
      | true => exact absurd ⟨k, hk, hc⟩ (ha x (List.mem_filter.1 hx).1)
    · rintro ha x hx ⟨k, hk, hc⟩
      have := ha k x hk (List.mem_filter.2 ⟨hx, decide_eq_true (hch _ _ ⟨k, hk, hc⟩)⟩)
      rw [hc] at this
      cases this

open Model in
/-- **C118** If the bytes of a text are tokens, `encode` with dropout spells it byte by byte with a chance of at least `p` to the
number of places at which it has a token of several bytes. -/
theorem C118_spelled (good tok : F → Prop) (laws : ScoreLaws F good tok) (vocab : List (ScoredToken F))
    (hgood : ∀ t ∈ vocab, tok t.score) (s : Str) (hbytes : ∀ b ∈ enc s, ∃ t ∈ vocab, t.value = [b]) (dropout : F)
    (hd : le dropout zero = false) (p : ℝ) (h0 : 0 ≤ p) (h1 : p ≤ 1) (rnd : (Nat → Bool) → Nat → F)
    (hr : ∀ c k, lt dropout (rnd c k) = !c k) :
    ∃ E : List (Nat × Nat), E.Nodup ∧ (∀ i j, (i, j) ∈ E ↔ Occurs vocab (enc s) i j ∧ i + 1 < j) ∧
      ∃ n₀, ∀ n, n₀ ≤ n → p ^ E.length ≤
        chance p n (fun c => ∃ ids, (from_ vocab).encode s dropout (rnd c) = .ok ids ∧ ∀ id ∈ ids, lenOf vocab id = 1) := by
  obtain ⟨n₀, hn⟩ := encode_chance vocab s dropout hd p rnd hr
  refine ⟨_, places_nodup vocab _, mem_places vocab _, n₀, fun n hle => ?_⟩
  rw [hn n hle (fun r => ∃ ids, r = .ok ids ∧ ∀ id ∈ ids, lenOf vocab id = 1)]
  generalize hE : (allEntries (from_ vocab) (enc s)).filterMap placeOf = E
  have hmem : ∀ i j, (i, j) ∈ E ↔ Occurs vocab (enc s) i j ∧ i + 1 < j := by rw [← hE]; exact mem_places vocab _
  rw [← chance_all]
  refine chance_le p h0 h1 _ fun c hc => ?_
  have hch : ∀ i j, Chosen E c i j ↔ (i, j) ∈ E := by
    intro i j
    constructor
    · rintro ⟨k, hk, _⟩; exact List.mem_of_getElem? hk
    · intro h
      obtain ⟨k, hk⟩ := List.getElem?_of_mem h
      exact ⟨k, hk, hc k (List.getElem?_eq_some_iff.1 hk).1⟩
  have hb := bestWithout_best laws vocab hgood (enc s) (Chosen E c) fun i j h => ((hmem i j).1 ((hch i j).1 h)).2
  cases hres : bestWithout vocab (enc s) (Chosen E c) with
  | error err =>
    rw [hres] at hb
    refine absurd ?_ hb.2
    -- the bytes themselves
    have key : ∀ bs : List UInt8, (∀ b ∈ bs, ∃ t ∈ vocab, t.value = [b]) → ∃ ids, Spells vocab ids bs ∧ Canonical vocab ids ∧
        ∀ id ∈ ids, lenOf vocab id = 1 := by
      intro bs
      induction bs with
      | nil =>
        intro _
        refine ⟨[], spells_nil.2 rfl, ?_, ?_⟩
        · intro i hi; cases hi
        · intro i hi; cases hi
      | cons b bs ih =>
        intro h
        obtain ⟨ids, a1, a2, a3⟩ := ih fun x hx => h x (List.mem_cons_of_mem _ hx)
        obtain ⟨id, hid⟩ := ((wf_from vocab).isSome_iff [b]).2 (h b (by simp))
        obtain ⟨t, ht, hv⟩ := (wf_from vocab).id_value hid
        have ht' : vocab[id]? = some t := ht
        refine ⟨id :: ids, spells_cons.2 ⟨t, bs, ht', a1, by rw [hv]; rfl⟩, ?_, ?_⟩
        · intro i hi
          rcases List.mem_cons.1 hi with rfl | hi
          · exact ⟨[b], by simp, ((wf_from vocab).ids _ _).1 hid⟩
          · exact a2 i hi
        · intro i hi
          rcases List.mem_cons.1 hi with rfl | hi
          · unfold lenOf; rw [ht']; simp only [hv, List.length_singleton]
          · exact a3 i hi
    obtain ⟨ids, a1, a2, a3⟩ := key (enc s) hbytes
    refine ⟨ids, a1, a2, ?_⟩
    rw [avoids_iff]
    intro x hx hs
    have hlt := ((hmem _ _).1 ((hch _ _).1 hs)).2
    have : (layout vocab 0 ids).filter (fun x => decide (x.1 + 1 < x.2)) = [] := by
      rw [← List.length_eq_zero_iff, layout_length, List.countP_eq_zero]
      intro id hid
      rw [a3 id hid]; simp
    have hx' : x ∈ (layout vocab 0 ids).filter (fun x => decide (x.1 + 1 < x.2)) := List.mem_filter.2 ⟨hx, decide_eq_true hlt⟩
    rw [this] at hx'
    cases hx'
  | ok ids =>
    rw [hres] at hb
    refine ⟨ids, rfl, fun id hid => ?_⟩
    obtain ⟨⟨h2, h3, h4⟩, -⟩ := hb
    rw [avoids_iff] at h4
    have hocc := layout_occurs vocab ids [] (enc s) h2
    rw [List.nil_append] at hocc
    have hnone : (layout vocab 0 ids).filter (fun x => decide (x.1 + 1 < x.2)) = [] := by
      rw [List.filter_eq_nil_iff]
      intro x hx hlt
      have hlt : x.1 + 1 < x.2 := by simpa using hlt
      exact h4 x hx ((hch _ _).2 ((hmem _ _).2 ⟨hocc x hx hlt, hlt⟩))
    have hcount := layout_length vocab ids 0
    rw [hnone, List.length_nil, eq_comm, List.countP_eq_zero] at hcount
    have hle := hcount id hid
    obtain ⟨x, hx, ⟨t, h5, h6⟩, _⟩ := h3 id hid
    have : lenOf vocab id = x.length := by unfold lenOf; rw [h5]; simp only [h6]
    have hpos := List.length_pos_iff.2 hx
    simp only [decide_eq_true_eq] at hle
    omega

/-- Non-vacuity: `"abab"` is encoded as two tokens of two bytes, and with dropout so with chance `(1 - p)²`. -/
example (p : ℝ) : (Model.from_ dropVocab).encode ['a', 'b', 'a', 'b'] 0 (fun _ => 0) = .ok [2, 2] ∧
    ∃ n₀, ∀ n, n₀ ≤ n → chance p n (fun c => (Model.from_ dropVocab).encode ['a', 'b', 'a', 'b'] 1 (fun k => if c k then 0 else 2) =
      .ok [2, 2]) = (1 - p) ^ 2 := by
  have h : (Model.from_ dropVocab).encode ['a', 'b', 'a', 'b'] 0 (fun _ => 0) = .ok [2, 2] := by decide +kernel
  refine ⟨h, C118_same _ _ int_laws dropVocab (fun _ _ => trivial) _ 0 (by decide) _ _ h 1 (by decide) p
    (fun c k => if c k then 0 else 2) fun c k => ?_⟩
  cases c k <;> decide

end Tokengeex

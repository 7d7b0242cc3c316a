import Verif.Proofs.JsonText
/-
Reading back written JSON values.
-/
namespace Tokengeex
namespace Json
open Spec
variable {F : Type}

/-- White space only. -/
def Blank (ws : Str) : Prop := ∀ c ∈ ws, isSpace c = true

theorem blank_nil : Blank [] := by intro c h; cases h

theorem blank_gap (style : Style) (d : Nat) : Blank (style.gap d) := by
  intro c h
  cases style with
  | compact => cases h
  | pretty =>
    simp only [Style.gap, List.mem_cons] at h
    rcases h with rfl | h
    · decide
    · rw [List.eq_of_mem_replicate h]; decide

theorem skip_blank : ∀ (ws s : Str), Blank ws → skip (ws ++ s) = skip s
  | [], _, _ => rfl
  | c :: ws, s, h => by
    have hc := h c (by simp)
    have := skip_blank ws s (fun x hx => h x (by simp [hx]))
    unfold skip at this ⊢
    rw [List.cons_append, List.dropWhile_cons, if_pos hc, this]

theorem skip_start {c : Char} {s : Str} (h : isSpace c = false) : skip (c :: s) = c :: s := by
  unfold skip
  rw [List.dropWhile_cons, if_neg (by rw [h]; decide)]

theorem skip_append_start {ws : Str} {c : Char} {s : Str} (hw : Blank ws) (h : isSpace c = false) :
    skip (ws ++ c :: s) = c :: s := by rw [skip_blank _ _ hw, skip_start h]

/-- A character a written value can start with. -/
structure Start (c : Char) : Prop where
  space : isSpace c = false
  bracket : c ≠ ']'
  brace : c ≠ '}'

theorem start_digit : ∀ d < 10, Start (digitChar d) := by
  have : ∀ d < 10, isSpace (digitChar d) = false ∧ digitChar d ≠ ']' ∧ digitChar d ≠ '}' := by decide
  intro d hd
  exact ⟨(this d hd).1, (this d hd).2.1, (this d hd).2.2⟩

/-- The first character of the text of a number. -/
theorem numText_head {t : NumTok} (h : ValidNum t) :
    ∃ c tl, numText t = c :: tl ∧ Start c ∧ c ≠ 'n' ∧ c ≠ 't' ∧ c ≠ 'f' ∧ c ≠ '"' ∧ c ≠ '[' ∧ c ≠ '{' := by
  rw [numText_eq]
  cases hneg : t.negative with
  | true =>
    refine ⟨'-', _, by rw [if_pos rfl]; rfl, ⟨by decide, by decide, by decide⟩, by decide, by decide, by decide,
      by decide, by decide, by decide⟩
  | false =>
    cases hint : t.int with
    | nil => exact absurd hint h.int_pos
    | cons d more =>
      have hd : d < 10 := h.int_digits d (by rw [hint]; simp)
      have hne : ∀ d < 10, digitChar d ≠ 'n' ∧ digitChar d ≠ 't' ∧ digitChar d ≠ 'f' ∧ digitChar d ≠ '"' ∧
        digitChar d ≠ '[' ∧ digitChar d ≠ '{' := by decide
      exact ⟨digitChar d, _, by rw [if_neg (by decide)]; rfl, start_digit d hd, hne d hd⟩

theorem write_head (N : NumText F) (hN : PrintsNumbers N) (style : Style) (d : Nat) (j : Json Str F) :
    ∃ c tl, write N style d j = c :: tl ∧ Start c := by
  rcases j with _ | b | x | s | xs | ms
  · exact ⟨'n', _, by unfold write; rfl, by decide, by decide, by decide⟩
  · cases b with
    | true => exact ⟨'t', _, by unfold write; rfl, by decide, by decide, by decide⟩
    | false => exact ⟨'f', _, by unfold write; rfl, by decide, by decide, by decide⟩
  · unfold write
    cases h : N.print x with
    | none => exact ⟨'n', _, rfl, by decide, by decide, by decide⟩
    | some t =>
      obtain ⟨c, tl, h1, h2, _⟩ := numText_head (hN x t h)
      exact ⟨c, tl, h1, h2⟩
  · exact ⟨'"', _, by unfold write writeStr; rfl, by decide, by decide, by decide⟩
  · cases xs with
    | nil => exact ⟨'[', _, by unfold write; rfl, by decide, by decide, by decide⟩
    | cons x xs => exact ⟨'[', _, by unfold write; rfl, by decide, by decide, by decide⟩
  · cases ms with
    | nil => exact ⟨'{', _, by unfold write; rfl, by decide, by decide, by decide⟩
    | cons m ms => exact ⟨'{', _, by unfold write; rfl, by decide, by decide, by decide⟩

mutual
/-- Fuel that suffices to read a written value. -/
def cost : Json Str F → Nat
  | .arr xs => costItems xs + 1
  | .obj ms => costMembers ms + 1
  | _ => 1
def costItems : List (Json Str F) → Nat
  | [] => 0
  | x :: xs => cost x + costItems xs + 1
def costMembers : List (Str × Json Str F) → Nat
  | [] => 0
  | (_, x) :: ms => cost x + costMembers ms + 1
end

/-- Reading a written value, at any depth and in any context, gives what `seen` says. -/
def ReadsBack (N : NumText F) (style : Style) (j : Json Str F) : Prop :=
  ∀ (fuel levels d : Nat) (ws rest : Str), cost j ≤ fuel → nesting j < levels → Blank ws → Stops rest →
    readValue N fuel levels (ws ++ (write N style d j ++ rest)) = (seen N j).map (·, rest)

theorem stops_bracket (s : Str) : Stops (']' :: s) := stops_cons (by decide)
theorem stops_brace (s : Str) : Stops ('}' :: s) := stops_cons (by decide)
theorem stops_comma (s : Str) : Stops (',' :: s) := stops_cons (by decide)

theorem stops_gap (style : Style) (d : Nat) {s : Str} (h : Stops s) : Stops (style.gap d ++ s) := by
  cases style with
  | compact => exact h
  | pretty => exact stops_cons (by decide)

theorem stops_items (N : NumText F) (style : Style) (d : Nat) (xs : List (Json Str F)) {s : Str} (h : Stops s) :
    Stops (writeItems N style d xs ++ s) := by
  cases xs with
  | nil => exact h
  | cons x xs => unfold writeItems; exact stops_comma _

theorem stops_members (N : NumText F) (style : Style) (d : Nat) (ms : List (Str × Json Str F)) {s : Str} (h : Stops s) :
    Stops (writeMembers N style d ms ++ s) := by
  cases ms with
  | nil => exact h
  | cons m ms => unfold writeMembers; exact stops_comma _

theorem blank_colon (style : Style) : ∃ ws, style.colon = ':' :: ws ∧ Blank ws := by
  cases style with
  | compact => exact ⟨[], rfl, blank_nil⟩
  | pretty => exact ⟨[' '], rfl, by intro c h; simp only [List.mem_singleton] at h; subst h; decide⟩

theorem readValue_num (N : NumText F) (fuel levels : Nat) {c : Char} {s ws : Str} (hw : Blank ws) (hs : Start c)
    (hc : c ≠ 'n' ∧ c ≠ 't' ∧ c ≠ 'f' ∧ c ≠ '"' ∧ c ≠ '[' ∧ c ≠ '{') :
    readValue N (fuel + 1) levels (ws ++ c :: s) = (readNumber N (c :: s)).map fun p => (.num p.1, p.2) := by
  unfold readValue
  rw [skip_append_start hw hs.space]
  simp only [if_neg hc.1, if_neg hc.2.1, if_neg hc.2.2.1, if_neg hc.2.2.2.1, if_neg hc.2.2.2.2.1, if_neg hc.2.2.2.2.2]

theorem readValue_str (N : NumText F) (fuel levels : Nat) {s ws : Str} (hw : Blank ws) :
    readValue N (fuel + 1) levels (ws ++ '"' :: s) = (readStr s.length s).map fun r => (.str r.1, r.2) := by
  unfold readValue
  rw [skip_append_start hw (by decide)]
  rfl

theorem readValue_arr (N : NumText F) (fuel levels : Nat) {s ws : Str} (hw : Blank ws) (hl : 1 < levels) :
    readValue N (fuel + 1) levels (ws ++ '[' :: s) =
      match skip s with
      | ']' :: r => some (.arr [], r)
      | r => (readItems N fuel (levels - 1) r).map fun p => (.arr p.1, p.2) := by
  conv => lhs; unfold readValue
  rw [skip_append_start hw (by decide)]
  simp only [show ('[' = 'n') = False by decide, show ('[' = 't') = False by decide, show ('[' = 'f') = False by decide,
    show ('[' = '"') = False by decide, if_false, if_true, show (levels ≤ 1) = False by simp; omega]
  rfl

theorem readValue_obj (N : NumText F) (fuel levels : Nat) {s ws : Str} (hw : Blank ws) (hl : 1 < levels) :
    readValue N (fuel + 1) levels (ws ++ '{' :: s) =
      match skip s with
      | '}' :: r => some (.obj [], r)
      | r => (readMembers N fuel (levels - 1) r).map fun p => (.obj p.1, p.2) := by
  conv => lhs; unfold readValue
  rw [skip_append_start hw (by decide)]
  simp only [show ('{' = 'n') = False by decide, show ('{' = 't') = False by decide, show ('{' = 'f') = False by decide,
    show ('{' = '"') = False by decide, show ('{' = '[') = False by decide, if_false, if_true,
    show (levels ≤ 1) = False by simp; omega]
  rfl

/-- An array or object whose first item starts with an ordinary character is read item by item. -/
theorem readValue_items (N : NumText F) (fuel levels : Nat) {c : Char} {s ws ws' : Str} (hw : Blank ws) (hw' : Blank ws')
    (hl : 1 < levels) (hs : Start c) :
    readValue N (fuel + 1) levels (ws ++ '[' :: (ws' ++ c :: s)) =
      (readItems N fuel (levels - 1) (c :: s)).map fun p => (.arr p.1, p.2) := by
  rw [readValue_arr N fuel levels hw hl, skip_append_start hw' hs.space]
  split
  · rename_i r h; injection h with h _; exact absurd h hs.bracket
  · rfl

theorem readValue_members (N : NumText F) (fuel levels : Nat) {s ws ws' : Str} (hw : Blank ws) (hw' : Blank ws')
    (hl : 1 < levels) :
    readValue N (fuel + 1) levels (ws ++ '{' :: (ws' ++ '"' :: s)) =
      (readMembers N fuel (levels - 1) ('"' :: s)).map fun p => (.obj p.1, p.2) := by
  rw [readValue_obj N fuel levels hw hl, skip_append_start hw' (by decide)]
  rfl

theorem literal_null (N : NumText F) (fuel levels : Nat) {ws : Str} (hw : Blank ws) (rest : Str) :
    readValue N (fuel + 1) levels (ws ++ ("null".toList ++ rest)) = some (.null, rest) := by
  unfold readValue
  rw [show "null".toList ++ rest = 'n' :: 'u' :: 'l' :: 'l' :: rest from rfl, skip_append_start hw (by decide)]
  rfl

theorem literal_true (N : NumText F) (fuel levels : Nat) {ws : Str} (hw : Blank ws) (rest : Str) :
    readValue N (fuel + 1) levels (ws ++ ("true".toList ++ rest)) = some (.bool true, rest) := by
  unfold readValue
  rw [show "true".toList ++ rest = 't' :: 'r' :: 'u' :: 'e' :: rest from rfl, skip_append_start hw (by decide)]
  rfl

theorem literal_false (N : NumText F) (fuel levels : Nat) {ws : Str} (hw : Blank ws) (rest : Str) :
    readValue N (fuel + 1) levels (ws ++ ("false".toList ++ rest)) = some (.bool false, rest) := by
  unfold readValue
  rw [show "false".toList ++ rest = 'f' :: 'a' :: 'l' :: 's' :: 'e' :: rest from rfl, skip_append_start hw (by decide)]
  rfl

/-- Items after one that reads back. -/
def ItemsBack (N : NumText F) (style : Style) (xs : List (Json Str F)) : Prop :=
  ∀ (x : Json Str F), ReadsBack N style x → ∀ (fuel levels d : Nat) (ws rest : Str), costItems (x :: xs) ≤ fuel →
    nestingItems (x :: xs) < levels → Blank ws →
    readItems N fuel levels (ws ++ (write N style (d + 1) x ++ (writeItems N style d xs ++ (style.gap d ++ ']' :: rest)))) =
      (seenItems N (x :: xs)).map (·, rest)

def MembersBack (N : NumText F) (style : Style) (ms : List (Str × Json Str F)) : Prop :=
  ∀ (k : Str) (x : Json Str F), ReadsBack N style x → ∀ (fuel levels d : Nat) (ws rest : Str),
    costMembers ((k, x) :: ms) ≤ fuel → nestingMembers ((k, x) :: ms) < levels → Blank ws →
    readMembers N fuel levels (ws ++ (writeStr k ++ (style.colon ++ (write N style (d + 1) x ++
        (writeMembers N style d ms ++ (style.gap d ++ '}' :: rest)))))) =
      (seenMembers N ((k, x) :: ms)).map (·, rest)

theorem itemsBack_nil (N : NumText F) (style : Style) : ItemsBack N style [] := by
  intro x hx fuel levels d ws rest hf hl hw
  cases fuel with
  | zero => simp [costItems] at hf
  | succ fuel =>
    unfold readItems
    rw [show writeItems N style d [] = [] by unfold writeItems; rfl, List.nil_append,
      hx fuel levels (d + 1) ws _ (by simp only [costItems] at hf; omega)
        (by simp only [nestingItems] at hl; omega) hw (stops_gap style d (stops_bracket rest))]
    simp only [seenItems]
    cases seen N x with
    | none => rfl
    | some y =>
      simp only [Option.map_some, Option.bind_some]
      rw [skip_append_start (blank_gap style d) (by decide)]
      rfl

theorem itemsBack_cons (N : NumText F) (style : Style) {y : Json Str F} {ys : List (Json Str F)}
    (hy : ReadsBack N style y) (hys : ItemsBack N style ys) : ItemsBack N style (y :: ys) := by
  intro x hx fuel levels d ws rest hf hl hw
  cases fuel with
  | zero => simp [costItems] at hf
  | succ fuel =>
    unfold readItems
    rw [hx fuel levels (d + 1) ws _ (by simp only [costItems] at hf; omega)
        (by simp only [nestingItems] at hl; omega) hw
        (stops_items N style d (y :: ys) (stops_gap style d (stops_bracket rest)))]
    rw [show seenItems N (x :: y :: ys) = (seen N x).bind fun z => (seenItems N (y :: ys)).map (z :: ·) by
      rw [seenItems]]
    cases seen N x with
    | none => rfl
    | some z =>
      simp only [Option.map_some, Option.bind_some]
      rw [show writeItems N style d (y :: ys) = ',' :: style.gap (d + 1) ++ write N style (d + 1) y ++
        writeItems N style d ys by rw [writeItems]]
      simp only [List.cons_append, List.append_assoc]
      rw [skip_start (by decide)]
      simp only []
      rw [hys y hy fuel levels d (style.gap (d + 1)) rest
        (by simp only [costItems] at hf ⊢; omega) (by simp only [nestingItems] at hl ⊢; omega) (blank_gap style (d + 1))]
      cases seenItems N (y :: ys) <;> rfl

theorem membersBack_nil (N : NumText F) (style : Style) : MembersBack N style [] := by
  intro k x hx fuel levels d ws rest hf hl hw
  cases fuel with
  | zero => simp [costMembers] at hf
  | succ fuel =>
    obtain ⟨tl, htl, hread⟩ := readStr_writeStr k (style.colon ++ (write N style (d + 1) x ++
        (writeMembers N style d [] ++ (style.gap d ++ '}' :: rest))))
    obtain ⟨wc, hcolon, hwc⟩ := blank_colon style
    rw [htl]
    unfold readMembers
    rw [skip_append_start hw (by decide)]
    simp only [hread, Option.bind_some]
    rw [hcolon, List.cons_append, skip_start (by decide)]
    simp only []
    rw [show writeMembers N style d [] = [] by unfold writeMembers; rfl, List.nil_append,
      hx fuel levels (d + 1) wc _ (by simp only [costMembers] at hf; omega)
        (by simp only [nestingMembers] at hl; omega) hwc (stops_gap style d (stops_brace rest))]
    simp only [seenMembers]
    cases seen N x with
    | none => rfl
    | some y =>
      simp only [Option.map_some, Option.bind_some]
      rw [skip_append_start (blank_gap style d) (by decide)]
      rfl

theorem membersBack_cons (N : NumText F) (style : Style) {k' : Str} {y : Json Str F} {ms : List (Str × Json Str F)}
    (hy : ReadsBack N style y) (hms : MembersBack N style ms) : MembersBack N style ((k', y) :: ms) := by
  intro k x hx fuel levels d ws rest hf hl hw
  cases fuel with
  | zero => simp [costMembers] at hf
  | succ fuel =>
    obtain ⟨tl, htl, hread⟩ := readStr_writeStr k (style.colon ++ (write N style (d + 1) x ++
        (writeMembers N style d ((k', y) :: ms) ++ (style.gap d ++ '}' :: rest))))
    obtain ⟨wc, hcolon, hwc⟩ := blank_colon style
    rw [htl]
    unfold readMembers
    rw [skip_append_start hw (by decide)]
    simp only [hread, Option.bind_some]
    rw [hcolon, List.cons_append, skip_start (by decide)]
    simp only []
    rw [hx fuel levels (d + 1) wc _ (by simp only [costMembers] at hf; omega)
        (by simp only [nestingMembers] at hl; omega) hwc
        (stops_members N style d ((k', y) :: ms) (stops_gap style d (stops_brace rest)))]
    rw [show seenMembers N ((k, x) :: (k', y) :: ms) =
      (seen N x).bind fun z => (seenMembers N ((k', y) :: ms)).map ((seenStr k, z) :: ·) by rw [seenMembers]]
    cases seen N x with
    | none => rfl
    | some z =>
      simp only [Option.map_some, Option.bind_some]
      rw [show writeMembers N style d ((k', y) :: ms) = ',' :: style.gap (d + 1) ++ writeStr k' ++ style.colon ++
        write N style (d + 1) y ++ writeMembers N style d ms by rw [writeMembers]]
      simp only [List.cons_append, List.append_assoc]
      rw [skip_start (by decide)]
      simp only []
      rw [hms k' y hy fuel levels d (style.gap (d + 1)) rest
        (by simp only [costMembers] at hf ⊢; omega) (by simp only [nestingMembers] at hl ⊢; omega)
        (blank_gap style (d + 1))]
      cases seenMembers N ((k', y) :: ms) <;> rfl

theorem readsBack_arr (N : NumText F) (hN : PrintsNumbers N) (style : Style) {x : Json Str F} {xs : List (Json Str F)}
    (hx : ReadsBack N style x) (hxs : ItemsBack N style xs) : ReadsBack N style (.arr (x :: xs)) := by
  intro fuel levels d ws rest hf hl hw _
  cases fuel with
  | zero => simp [cost] at hf
  | succ fuel =>
    obtain ⟨c, tl, hhead, hs⟩ := write_head N hN style (d + 1) x
    have h := hxs x hx fuel (levels - 1) d [] rest (by simp only [cost] at hf; omega)
      (by simp only [nesting] at hl; omega) blank_nil
    rw [write]
    simp only [List.cons_append, List.append_assoc, List.nil_append] at h ⊢
    rw [hhead, List.cons_append] at h ⊢
    rw [readValue_items N fuel levels hw (blank_gap style (d + 1)) (by simp only [nesting] at hl; omega) hs, h, seen]
    cases seenItems N (x :: xs) <;> rfl

theorem readsBack_obj (N : NumText F) (style : Style) {k : Str} {x : Json Str F} {ms : List (Str × Json Str F)}
    (hx : ReadsBack N style x) (hms : MembersBack N style ms) : ReadsBack N style (.obj ((k, x) :: ms)) := by
  intro fuel levels d ws rest hf hl hw _
  cases fuel with
  | zero => simp [cost] at hf
  | succ fuel =>
    have h := hms k x hx fuel (levels - 1) d [] rest (by simp only [cost] at hf; omega)
      (by simp only [nesting] at hl; omega) blank_nil
    rw [write]
    simp only [List.cons_append, List.append_assoc, List.nil_append, writeStr] at h ⊢
    rw [readValue_members N fuel levels hw (blank_gap style (d + 1)) (by simp only [nesting] at hl; omega), h, seen]
    cases seenMembers N ((k, x) :: ms) <;> rfl

mutual
theorem readsBack (N : NumText F) (hN : PrintsNumbers N) (style : Style) : ∀ j : Json Str F, ReadsBack N style j
  | .null => by
    intro fuel levels d ws rest hf hl hw _
    cases fuel with
    | zero => simp [cost] at hf
    | succ fuel => rw [write, literal_null N fuel levels hw, seen]; rfl
  | .bool true => by
    intro fuel levels d ws rest hf hl hw _
    cases fuel with
    | zero => simp [cost] at hf
    | succ fuel => rw [write, literal_true N fuel levels hw, seen]; rfl
  | .bool false => by
    intro fuel levels d ws rest hf hl hw _
    cases fuel with
    | zero => simp [cost] at hf
    | succ fuel => rw [write, literal_false N fuel levels hw, seen]; rfl
  | .num x => by
    intro fuel levels d ws rest hf hl hw hr
    cases fuel with
    | zero => simp [cost] at hf
    | succ fuel =>
      rw [write, seen]
      cases h : N.print x with
      | none =>
        simp only []
        rw [literal_null N fuel levels hw]; rfl
      | some t =>
        simp only []
        obtain ⟨c, tl, h1, h2, h3⟩ := numText_head (hN x t h)
        have hread := readNum_numText (hN x t h) hr
        rw [h1, List.cons_append] at hread ⊢
        rw [readValue_num N fuel levels hw h2 h3]
        unfold readNumber
        rw [hread]
        simp only [Option.bind_eq_bind, Option.bind_some]
        cases N.value t <;> rfl
  | .str s => by
    intro fuel levels d ws rest hf hl hw _
    cases fuel with
    | zero => simp [cost] at hf
    | succ fuel =>
      obtain ⟨tl, h1, h2⟩ := readStr_writeStr s rest
      rw [write, h1, readValue_str N fuel levels hw, h2, seen]; rfl
  | .arr [] => by
    intro fuel levels d ws rest hf hl hw _
    cases fuel with
    | zero => simp [cost] at hf
    | succ fuel =>
      rw [write, seen]
      simp only [List.cons_append, List.nil_append]
      rw [readValue_arr N fuel levels hw (by simp only [nesting] at hl; omega), skip_start (by decide)]
      simp only [seenItems]; rfl
  | .arr (x :: xs) => readsBack_arr N hN style (readsBack N hN style x) (itemsBack N hN style xs)
  | .obj [] => by
    intro fuel levels d ws rest hf hl hw _
    cases fuel with
    | zero => simp [cost] at hf
    | succ fuel =>
      rw [write, seen]
      simp only [List.cons_append, List.nil_append]
      rw [readValue_obj N fuel levels hw (by simp only [nesting] at hl; omega), skip_start (by decide)]
      simp only [seenMembers]; rfl
  | .obj ((k, x) :: ms) => readsBack_obj N style (readsBack N hN style x) (membersBack N hN style ms)

theorem itemsBack (N : NumText F) (hN : PrintsNumbers N) (style : Style) : ∀ xs, ItemsBack N style xs
  | [] => itemsBack_nil N style
  | y :: ys => itemsBack_cons N style (readsBack N hN style y) (itemsBack N hN style ys)

theorem membersBack (N : NumText F) (hN : PrintsNumbers N) (style : Style) : ∀ ms, MembersBack N style ms
  | [] => membersBack_nil N style
  | (_, y) :: ms => membersBack_cons N style (readsBack N hN style y) (membersBack N hN style ms)
end

mutual
theorem cost_le (N : NumText F) (hN : PrintsNumbers N) (style : Style) (d : Nat) :
    ∀ j : Json Str F, cost j ≤ 2 * (write N style d j).length
  | .null => by rw [write, cost]; all_goals simp
  | .bool true => by rw [write, cost]; all_goals simp
  | .bool false => by rw [write, cost]; all_goals simp
  | .num x => by
    obtain ⟨c, tl, h, _⟩ := write_head N hN style d (.num x)
    rw [h, cost]; all_goals simp
    omega
  | .str s => by rw [write, cost]; all_goals (simp [writeStr]; try omega)
  | .arr [] => by rw [write, cost, costItems]; simp
  | .arr (x :: xs) => by
    have h1 := cost_le N hN style (d + 1) x
    have h2 := costItems_le N hN style d xs
    rw [write, cost, costItems]
    simp only [List.length_append, List.length_cons, List.length_nil]
    omega
  | .obj [] => by rw [write, cost, costMembers]; simp
  | .obj ((k, x) :: ms) => by
    have h1 := cost_le N hN style (d + 1) x
    have h2 := costMembers_le N hN style d ms
    rw [write, cost, costMembers]
    simp only [List.length_append, List.length_cons, List.length_nil]
    omega

theorem costItems_le (N : NumText F) (hN : PrintsNumbers N) (style : Style) (d : Nat) :
    ∀ xs : List (Json Str F), costItems xs ≤ 2 * (writeItems N style d xs).length
  | [] => by rw [costItems]; omega
  | x :: xs => by
    have h1 := cost_le N hN style (d + 1) x
    have h2 := costItems_le N hN style d xs
    rw [writeItems, costItems]
    simp only [List.length_append, List.length_cons]
    omega

theorem costMembers_le (N : NumText F) (hN : PrintsNumbers N) (style : Style) (d : Nat) :
    ∀ ms : List (Str × Json Str F), costMembers ms ≤ 2 * (writeMembers N style d ms).length
  | [] => by rw [costMembers]; omega
  | (k, x) :: ms => by
    have h1 := cost_le N hN style (d + 1) x
    have h2 := costMembers_le N hN style d ms
    rw [writeMembers, costMembers]
    simp only [List.length_append, List.length_cons]
    omega
end

/-- Reading what was written gives what `seen` says, for values nested less than 128 deep. -/
theorem read_write (N : NumText F) (hN : PrintsNumbers N) (style : Style) (j : Json Str F) (hd : nesting j < 128) :
    read N (write N style 0 j) = seen N j := by
  have hc := cost_le N hN style 0 j
  have h := readsBack N hN style j (2 * (write N style 0 j).length + 2) 128 0 [] [] (by omega) hd blank_nil stops_nil
  rw [List.append_nil, List.nil_append] at h
  unfold read
  rw [h]
  cases seen N j with
  | none => rfl
  | some y => simp [skip]

end Json
end Tokengeex

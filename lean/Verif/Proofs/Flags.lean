import Verif.Spec.Flags
/-
The parser of the command line.
-/
namespace Tokengeex.Cli
open Spec

variable {F : Type}

theorem except_bind_ok {ε α β : Type} {x : Except ε α} {f : α → Except ε β} {y : β} :
    (x >>= f) = .ok y ↔ ∃ a, x = .ok a ∧ f a = .ok y := by
  cases x with
  | error e => simp [bind, Except.bind]
  | ok a => simp [bind, Except.bind]

/-- All names of flags of a subcommand. -/
def Sub.names (s : Sub) : List Str := s.flags.flatMap fun f => f.1 :: f.2.1.toList

/-- The long name of a flag. -/
def Sub.long (s : Sub) (a : Str) : Str := ((s.flag a).map (·.1)).getD []

theorem Sub.flag_names {s : Sub} {a : Str} (h : (s.flag a).isSome) : a ∈ s.names := by
  obtain ⟨f, hf⟩ := Option.isSome_iff_exists.1 h
  have hmem := List.mem_of_find?_eq_some hf
  have hp := List.find?_some hf
  refine List.mem_flatMap.2 ⟨f, hmem, ?_⟩
  simp only [Bool.or_eq_true, beq_iff_eq] at hp
  rcases hp with h | h
  · rw [← h]; exact List.mem_cons_self
  · rw [h]; exact List.mem_cons_of_mem _ (by simp)

theorem Sub.names_flag {s : Sub} {a : Str} (h : a ∈ s.names) : (s.flag a).isSome := by
  obtain ⟨f, hf, ha⟩ := List.mem_flatMap.1 h
  refine List.find?_isSome.2 ⟨f, hf, ?_⟩
  simp only [Bool.or_eq_true, beq_iff_eq]
  rcases List.mem_cons.1 ha with h | h
  · exact .inl h.symm
  · exact .inr (by simpa using h)

theorem Sub.names_dash (s : Sub) : ∀ a ∈ s.names, a.head? = some '-' ∧ a ≠ "--".toList ∧ a ≠ "--help".toList ∧ a ≠ "-h".toList := by
  cases s <;> decide

theorem Sub.name_dash (s : Sub) : s.name ≠ "--".toList ∧ s.name.head? ≠ some '-' := by
  cases s <;> decide

theorem Sub.ofArg_name (s : Sub) : Sub.ofArg s.name = some s := by
  cases s <;> decide

theorem Sub.of_ofArg {a : Str} {s : Sub} (h : Sub.ofArg a = some s) : a = s.name := by
  have := List.find?_some h
  exact (by simpa using this : s.name = a).symm

/-- What the parser keeps of the items. -/
def kept (s : Sub) (items : Items) : Values := items.map fun p => (s.long p.1, p.2)

/-- The flags are known and the values are acceptable. -/
def Accepted (float : Str → Option F) (s : Sub) (items : Items) : Prop :=
  ∀ p ∈ items, ∃ f, s.flag p.1 = some f ∧ f.2.2.accepts float p.2 = true

theorem written_cons (p : Str × Str) (items : Items) : written (p :: items) = p.1 :: p.2 :: written items := rfl

/-- With `--` seen and the subcommand known, nothing may follow. -/
theorem scan_dashes (float : Str → Option F) (s : Sub) (values : Values) (args : List Str) (out : Option Sub × Values) :
    scan float (some s) true values args = .ok out ↔ args = [] ∧ out = (some s, values) := by
  cases args with
  | nil => rw [scan]; simp [eq_comm]
  | cons a rest => rw [scan.eq_def]; simp

theorem scan_items (float : Str → Option F) (s : Sub) : ∀ (n : Nat) (args : List Str) (values : Values)
    (out : Option Sub × Values), args.length ≤ n → (scan float (some s) false values args = .ok out ↔
      ∃ items, (args = written items ∨ args = written items ++ ["--".toList]) ∧ Accepted float s items ∧
        out = (some s, values ++ kept s items)) := by
  intro n
  induction n using Nat.strongRecOn with
  | ind n ih =>
  intro args values out hlen
  match args, hlen with
  | [], _ =>
    rw [scan]
    constructor
    · intro h
      exact ⟨[], .inl rfl, (by intro p hp; cases hp), by simpa [kept] using (Except.ok.inj h).symm⟩
    · rintro ⟨items, h, _, h2⟩
      cases items with
      | nil => simpa [kept, eq_comm] using h2
      | cons p items => rcases h with h | h <;> cases h
  | a :: rest, hlen =>
    rw [scan.eq_def]
    dsimp only
    by_cases hdd : a = "--".toList
    · subst hdd
      rw [if_pos (by decide)]
      constructor
      · intro h
        cases rest with
        | nil => exact ⟨[], .inr rfl, (by intro p hp; cases hp), by simpa [kept] using (Except.ok.inj h).symm⟩
        | cons b rest => simp at h
      · rintro ⟨items, h, h1, h2⟩
        cases items with
        | nil =>
          rcases h with h | h
          · cases h
          · simp only [written, List.flatMap_nil, List.nil_append, List.cons.injEq, true_and] at h
            subst h
            simpa [kept, eq_comm] using h2
        | cons p items =>
          exfalso
          obtain ⟨f, hf, _⟩ := h1 p (by simp)
          have := s.names_dash p.1 (Sub.flag_names (by rw [hf]; rfl))
          rcases h with h | h <;> (rw [written_cons] at h; exact this.2.1 (List.cons.inj h).1.symm)
    · rw [if_neg (by simp only [Bool.not_false, Bool.true_and, beq_iff_eq]; exact hdd)]
      by_cases hd : a.head? = some '-'
      · rw [if_pos (by simp [hd])]
        by_cases hh : a = "--help".toList ∨ a = "-h".toList
        · rw [if_pos (by simpa using hh)]
          constructor
          · intro h; cases h
          · rintro ⟨items, h, h1, h2⟩
            exfalso
            cases items with
            | nil =>
              rcases h with h | h
              · cases h
              · exact hdd (List.cons.inj h).1
            | cons p items =>
              obtain ⟨f, hf, _⟩ := h1 p (by simp)
              have := s.names_dash p.1 (Sub.flag_names (by rw [hf]; rfl))
              have hp : p.1 = a := by rcases h with h | h <;> (rw [written_cons] at h; exact (List.cons.inj h).1.symm)
              rw [hp] at this
              rcases hh with hh | hh
              · exact this.2.2.1 hh
              · exact this.2.2.2 hh
        · rw [if_neg (by simpa using hh)]
          simp only [Option.bind_some]
          cases hf : s.flag a with
          | none =>
            simp only [reduceCtorEq, false_iff]
            rintro ⟨items, h, h1, h2⟩
            cases items with
            | nil =>
              rcases h with h | h
              · cases h
              · exact hdd (List.cons.inj h).1
            | cons p items =>
              obtain ⟨f, hf', _⟩ := h1 p (by simp)
              have hp : p.1 = a := by rcases h with h | h <;> (rw [written_cons] at h; exact (List.cons.inj h).1.symm)
              rw [hp, hf] at hf'
              cases hf'
          | some f =>
            obtain ⟨name, sh, ty⟩ := f
            cases rest with
            | nil =>
              simp only [reduceCtorEq, false_iff]
              rintro ⟨items, h, h1, h2⟩
              cases items with
              | nil =>
                rcases h with h | h
                · cases h
                · exact hdd (List.cons.inj h).1
              | cons p items =>
                rcases h with h | h <;> (rw [written_cons] at h; have := (List.cons.inj h).2; cases this)
            | cons v rest =>
              simp only
              have hlong : s.long a = name := by rw [Sub.long, hf]; rfl
              by_cases hacc : ty.accepts float v = true
              · rw [if_pos hacc, ih (n - 2) (by simp at hlen; omega) rest _ _ (by simp at hlen; omega)]
                constructor
                · rintro ⟨items, h, h1, h2⟩
                  refine ⟨(a, v) :: items, ?_, ?_, ?_⟩
                  · rcases h with h | h
                    · left; rw [written_cons, h]
                    · right; rw [written_cons, h]; rfl
                  · intro p hp
                    rcases List.mem_cons.1 hp with rfl | hp
                    · exact ⟨_, hf, hacc⟩
                    · exact h1 p hp
                  · rw [h2, kept, kept, List.map_cons, hlong]
                    simp
                · rintro ⟨items, h, h1, h2⟩
                  cases items with
                  | nil =>
                    exfalso
                    rcases h with h | h
                    · cases h
                    · exact hdd (List.cons.inj h).1
                  | cons p items =>
                    have hp : p = (a, v) ∧ (rest = written items ∨ rest = written items ++ ["--".toList]) := by
                      rcases h with h | h
                      · rw [written_cons] at h
                        obtain ⟨e1, e2⟩ := List.cons.inj h
                        obtain ⟨e2, e3⟩ := List.cons.inj e2
                        exact ⟨Prod.ext e1.symm e2.symm, .inl e3⟩
                      · rw [written_cons] at h
                        obtain ⟨e1, e2⟩ := List.cons.inj h
                        obtain ⟨e2, e3⟩ := List.cons.inj e2
                        exact ⟨Prod.ext e1.symm e2.symm, .inr e3⟩
                    obtain ⟨rfl, hr⟩ := hp
                    refine ⟨items, hr, fun p hp => h1 p (by simp [hp]), ?_⟩
                    rw [h2, kept, kept, List.map_cons, hlong]
                    simp
              · rw [if_neg hacc]
                simp only [reduceCtorEq, false_iff]
                rintro ⟨items, h, h1, h2⟩
                cases items with
                | nil =>
                  rcases h with h | h
                  · cases h
                  · exact hdd (List.cons.inj h).1
                | cons p items =>
                  have hp : p = (a, v) := by
                    rcases h with h | h <;>
                    · rw [written_cons] at h
                      obtain ⟨e1, e2⟩ := List.cons.inj h
                      obtain ⟨e2, e3⟩ := List.cons.inj e2
                      exact Prod.ext e1.symm e2.symm
                  obtain ⟨f, hf', hacc'⟩ := h1 p (by simp)
                  rw [hp] at hf' hacc'
                  rw [hf] at hf'
                  cases hf'
                  exact hacc hacc'
      · rw [if_neg (by simp [hd])]
        simp only [reduceCtorEq, false_iff]
        rintro ⟨items, h, h1, h2⟩
        cases items with
        | nil =>
          rcases h with h | h
          · cases h
          · exact hdd (List.cons.inj h).1
        | cons p items =>
          obtain ⟨f, hf, _⟩ := h1 p (by simp)
          have := s.names_dash p.1 (Sub.flag_names (by rw [hf]; rfl))
          have hp : p.1 = a := by rcases h with h | h <;> (rw [written_cons] at h; exact (List.cons.inj h).1.symm)
          rw [hp] at this
          exact hd this.1

theorem scan_none (float : Str → Option F) (args : List Str) (s : Sub) (values : Values) :
    scan float none false [] args = .ok (some s, values) ↔
      ∃ items, (args = s.name :: written items ∨ args = s.name :: written items ++ ["--".toList] ∨
        (items = [] ∧ args = ["--".toList, s.name])) ∧ Accepted float s items ∧ values = kept s items := by
  cases args with
  | nil =>
    rw [scan]
    simp
  | cons a rest =>
    rw [scan.eq_def]
    dsimp only
    by_cases hdd : a = "--".toList
    · subst hdd
      rw [if_pos (by decide)]
      have hne := s.name_dash.1
      constructor
      · intro h
        cases rest with
        | nil => cases h
        | cons b rest =>
          simp only at h
          cases hs : Sub.ofArg b with
          | none => rw [hs] at h; cases h
          | some s' =>
            rw [hs] at h
            simp only at h
            rw [scan_dashes] at h
            obtain ⟨rfl, h⟩ := h
            cases h
            exact ⟨[], .inr (.inr ⟨rfl, by rw [Sub.of_ofArg hs]⟩), (by intro p hp; cases hp), rfl⟩
      · rintro ⟨items, h, h1, h2⟩
        rcases h with h | h | ⟨rfl, h⟩
        · exact absurd (List.cons.inj h).1.symm hne
        · exact absurd (List.cons.inj h).1.symm hne
        · cases h
          simp only [Sub.ofArg_name]
          rw [scan_dashes]
          exact ⟨rfl, by rw [h2]; rfl⟩
    · rw [if_neg (by simp only [Bool.not_false, Bool.true_and, beq_iff_eq]; exact hdd)]
      by_cases hd : a.head? = some '-'
      · rw [if_pos (by simp [hd])]
        have : ∀ items, ¬ (a :: rest = s.name :: written items ∨ a :: rest = s.name :: written items ++ ["--".toList] ∨
            (items = [] ∧ a :: rest = ["--".toList, s.name])) := by
          rintro items (h | h | ⟨_, h⟩)
          · exact s.name_dash.2 ((List.cons.inj h).1 ▸ hd)
          · exact s.name_dash.2 ((List.cons.inj h).1 ▸ hd)
          · exact hdd (List.cons.inj h).1
        constructor
        · intro h
          exfalso
          by_cases hh : (a == "--help".toList || a == "-h".toList) = true
          · rw [if_pos hh] at h; cases h
          · rw [if_neg hh] at h; cases h
        · rintro ⟨items, h, _⟩
          exact absurd h (this items)
      · rw [if_neg (by simp [hd])]
        cases hs : Sub.ofArg a with
        | none =>
          simp only [reduceCtorEq, false_iff]
          rintro ⟨items, h, _⟩
          have ha : a = s.name := by
            rcases h with h | h | ⟨_, h⟩
            · exact (List.cons.inj h).1
            · exact (List.cons.inj h).1
            · exact absurd (List.cons.inj h).1 hdd
          rw [ha, Sub.ofArg_name] at hs
          cases hs
        | some s' =>
          simp only
          rw [scan_items float s' rest.length rest _ _ (Nat.le_refl _)]
          have ha := Sub.of_ofArg hs
          constructor
          · rintro ⟨items, h, h1, h2⟩
            cases h2
            refine ⟨items, ?_, h1, by simp⟩
            rcases h with h | h
            · left; rw [ha, h]
            · right; left; rw [ha, h]; rfl
          · rintro ⟨items, h, h1, h2⟩
            have hh : a = s.name ∧ (rest = written items ∨ rest = written items ++ ["--".toList]) := by
              rcases h with h | h | ⟨_, h⟩
              · exact ⟨(List.cons.inj h).1, .inl (List.cons.inj h).2⟩
              · exact ⟨(List.cons.inj h).1, .inr (List.cons.inj h).2⟩
              · exact absurd (List.cons.inj h).1 hdd
            have : s' = s := by
              rw [hh.1, Sub.ofArg_name] at hs
              exact (Option.some.inj hs).symm
            subst this
            exact ⟨items, hh.2, h1, by rw [h2]; simp⟩

/-! ### Values of flags -/

theorem Sub.long_decides (s : Sub) {names : List String} {name : String}
    (h : ∀ a ∈ s.names, s.long a = name.toList ↔ a ∈ names.map String.toList) {items : Items}
    (hk : ∀ p ∈ items, p.1 ∈ s.names) : (kept s items).of name = given items names := by
  induction items with
  | nil => rfl
  | cons p items ih =>
    have hp := h p.1 (hk p (by simp))
    have ih := ih fun q hq => hk q (by simp [hq])
    rw [Values.of, kept] at ih
    rw [given] at ih ⊢
    rw [Values.of, kept, List.map_cons, List.filterMap_cons]
    by_cases hc : p.1 ∈ names.map String.toList
    · rw [List.filter_cons_of_pos (by simpa using hp.2 hc), if_pos hc, List.map_cons, ih]
    · rw [List.filter_cons_of_neg (by simpa using fun h => hc (hp.1 h)), if_neg hc, ih]

theorem Sub.flags_distinct (s : Sub) : ∀ f ∈ s.flags, ∀ g ∈ s.flags, f.1 = g.1 → f = g := by
  cases s <;> decide

theorem accepted_iff (float : Str → Option F) (s : Sub) (items : Items) :
    Accepted float s items ↔ (∀ p ∈ items, p.1 ∈ s.names) ∧
      ∀ f ∈ s.flags, ∀ v, (f.1, v) ∈ kept s items → f.2.2.accepts float v = true := by
  constructor
  · intro h
    refine ⟨fun p hp => ?_, fun f hf v hv => ?_⟩
    · obtain ⟨f, hf, _⟩ := h p hp
      exact Sub.flag_names (by rw [hf]; rfl)
    · obtain ⟨p, hp, e⟩ := List.mem_map.1 hv
      obtain ⟨g, hg, hacc⟩ := h p hp
      have e1 : g.1 = f.1 := by
        have := congrArg Prod.fst e
        simpa [Sub.long, hg] using this
      have e2 : p.2 = v := congrArg Prod.snd e
      rw [← e2, ← s.flags_distinct g (List.mem_of_find?_eq_some hg) f hf e1]
      exact hacc
  · rintro ⟨h1, h2⟩ p hp
    obtain ⟨f, hf⟩ := Option.isSome_iff_exists.1 (Sub.names_flag (h1 p hp))
    refine ⟨f, hf, h2 f (List.mem_of_find?_eq_some hf) _ ?_⟩
    exact List.mem_map.2 ⟨p, hp, by simp [Sub.long, hf]⟩

theorem mem_of {values : Values} {name : String} {v : Str} : v ∈ values.of name ↔ (name.toList, v) ∈ values := by
  rw [Values.of, List.mem_map]
  constructor
  · rintro ⟨p, hp, rfl⟩
    obtain ⟨h1, h2⟩ := List.mem_filter.1 hp
    have : p.1 = name.toList := by simpa using h2
    rw [← this]
    exact h1
  · intro h
    exact ⟨_, List.mem_filter.2 ⟨h, by simp⟩, rfl⟩

theorem required_ok {α : Type} {vals : List α} {x : α} : required vals = .ok x ↔ vals = [x] := by
  match vals with
  | [] => simp [required]
  | [v] => simp [required]
  | v :: w :: vals => simp [required]

theorem optionalFlag_ok {α : Type} {vals : List α} {x : Option α} :
    optionalFlag vals = .ok x ↔ (vals = [] ∧ x = none) ∨ ∃ v, x = some v ∧ vals = [v] := by
  match vals with
  | [] => simp [optionalFlag, eq_comm]
  | [v] => simp [optionalFlag, eq_comm]
  | v :: w :: vals => simp [optionalFlag]

theorem filterMap_one {α : Type} {p : Str → Option α} {vals : List Str} (h : ∀ v ∈ vals, (p v).isSome) {x : α} :
    vals.filterMap p = [x] ↔ ∃ s, vals = [s] ∧ p s = some x := by
  match vals with
  | [] => simp
  | [v] =>
    obtain ⟨y, hy⟩ := Option.isSome_iff_exists.1 (h v (by simp))
    simp [hy]
  | v :: w :: vals =>
    obtain ⟨y, hy⟩ := Option.isSome_iff_exists.1 (h v (by simp))
    obtain ⟨z, hz⟩ := Option.isSome_iff_exists.1 (h w (by simp))
    simp [hy, hz]

theorem filterMap_none {α : Type} {p : Str → Option α} {vals : List Str} (h : ∀ v ∈ vals, (p v).isSome) :
    vals.filterMap p = [] ↔ vals = [] := by
  match vals with
  | [] => simp
  | v :: vals =>
    obtain ⟨y, hy⟩ := Option.isSome_iff_exists.1 (h v (by simp))
    simp [hy]

theorem required_help {α : Type} {vals : List α} : required vals ≠ .error .help := by
  match vals with
  | [] => simp [required]
  | [v] => simp [required]
  | v :: w :: vals => simp [required]

theorem optionalFlag_help {α : Type} {vals : List α} : optionalFlag vals ≠ .error .help := by
  match vals with
  | [] => simp [optionalFlag]
  | [v] => simp [optionalFlag]
  | v :: w :: vals => simp [optionalFlag]

theorem bind_help {α β : Type} {x : Except Early α} {f : α → Except Early β} (hx : x ≠ .error .help)
    (hf : ∀ a, f a ≠ .error .help) : (x >>= f) ≠ .error .help := by
  cases x with
  | error e => cases e <;> simp_all [bind, Except.bind]
  | ok a => exact hf a

/-- Only the flags `--help` and `-h` end with the help text. -/
theorem record_help [TrainOps F] (float : Str → Option F) (values : Values) (s : Sub) : record float values s ≠ .error .help := by
  cases s with
  | regex =>
    rw [record]
    exact bind_help optionalFlag_help fun a => by cases a <;> simp [pure, Except.pure]
  | _ =>
    rw [record]
    repeat' first
      | exact (by simp [pure, Except.pure] : ∀ (l : Line F), (pure l : Except Early (Line F)) ≠ .error .help) _
      | refine bind_help required_help fun _ => ?_
      | refine bind_help optionalFlag_help fun _ => ?_

/-! ### Numbers and truth values -/

theorem digits_value (d : Str) : ∀ n, d.foldl (fun n c => 10 * n + (c.toNat - 48)) n =
    n * 10 ^ d.length + Nat.ofDigits 10 (d.reverse.map fun c => c.toNat - 48) := by
  induction d with
  | nil => simp
  | cons c d ih =>
    intro n
    rw [List.foldl_cons, ih, List.reverse_cons, List.map_append, Nat.ofDigits_append]
    simp only [List.length_map, List.length_reverse, List.length_cons, List.map_cons, List.map_nil, Nat.ofDigits_singleton]
    ring

theorem isDigit_iff (c : Char) : c.isDigit = true ↔ '0' ≤ c ∧ c ≤ '9' := by
  simp [Char.isDigit, Char.le_def]

theorem parseUsize_iff (s : Str) (n : Nat) : parseUsize s = some n ↔ Number s n := by
  have core : ∀ d : Str, (if d.isEmpty || !d.all Char.isDigit then none
      else if d.foldl (fun n c => 10 * n + (c.toNat - 48)) 0 < 2 ^ 64 then
        some (d.foldl (fun n c => 10 * n + (c.toNat - 48)) 0) else none) = some n ↔
      d ≠ [] ∧ (∀ c ∈ d, '0' ≤ c ∧ c ≤ '9') ∧ n = Nat.ofDigits 10 (d.reverse.map fun c => c.toNat - 48) ∧ n < 2 ^ 64 := by
    intro d
    rw [digits_value, Nat.zero_mul, Nat.zero_add]
    have hall : d.all Char.isDigit = true ↔ ∀ c ∈ d, '0' ≤ c ∧ c ≤ '9' := by
      rw [List.all_eq_true]
      exact forall_congr' fun c => by rw [isDigit_iff]
    by_cases h1 : d = []
    · subst h1; simp
    by_cases h2 : d.all Char.isDigit = true
    · rw [if_neg (by simp [h1, h2])]
      by_cases h3 : Nat.ofDigits 10 (d.reverse.map fun c => c.toNat - 48) < 2 ^ 64
      · rw [if_pos h3]
        constructor
        · intro h
          have := Option.some.inj h
          exact ⟨h1, hall.1 h2, this.symm, this ▸ h3⟩
        · rintro ⟨_, _, h, _⟩
          rw [h]
      · rw [if_neg h3]
        simp only [reduceCtorEq, false_iff]
        rintro ⟨_, _, h, h4⟩
        exact h3 (h ▸ h4)
    · rw [if_pos (by simp [h2])]
      simp only [reduceCtorEq, false_iff]
      rintro ⟨_, h, _⟩
      exact h2 (hall.2 h)
  rw [parseUsize, core]
  cases s with
  | nil =>
    constructor
    · rintro ⟨h1, _⟩; exact absurd rfl h1
    · rintro ⟨d, hd | hd, h1, h2, h3, h4⟩
      · subst hd; exact absurd rfl h1
      · cases hd
  | cons c rest =>
    rw [skipPlus]
    by_cases hc : c = '+'
    · subst hc
      rw [if_pos rfl]
      constructor
      · rintro ⟨h1, h2, h3, h4⟩
        exact ⟨rest, .inr rfl, h1, h2, h3, h4⟩
      · rintro ⟨d, hd | hd, h1, h2, h3, h4⟩
        · subst hd
          exact absurd (h2 '+' (by simp)) (by decide)
        · cases hd
          exact ⟨h1, h2, h3, h4⟩
    · rw [if_neg hc]
      constructor
      · rintro ⟨h1, h2, h3, h4⟩
        exact ⟨_, .inl rfl, h1, h2, h3, h4⟩
      · rintro ⟨d, hd | hd, h1, h2, h3, h4⟩
        · subst hd
          exact ⟨h1, h2, h3, h4⟩
        · exact absurd (List.cons.inj hd).1 hc

theorem parseBool_iff (s : Str) (b : Bool) : parseBool s = some b ↔ Truth s b := by
  rw [parseBool, Truth]
  by_cases h1 : s = "true".toList
  · subst h1; rw [if_pos rfl]; cases b <;> simp
  · rw [if_neg h1]
    by_cases h2 : s = "false".toList
    · subst h2; rw [if_pos rfl]; cases b <;> simp
    · rw [if_neg h2]
      constructor
      · intro h; cases h
      · rintro (⟨h, _⟩ | ⟨h, _⟩)
        · exact absurd h h1
        · exact absurd h h2

/-! ### The parser as a whole -/

theorem once_iff {α : Type} {p : Str → Option α} {reads : Str → α → Prop} (hp : ∀ s x, p s = some x ↔ reads s x)
    {items : Items} {names : List String} (h : ∀ v ∈ given items names, (p v).isSome) {x : α} :
    required ((given items names).filterMap p) = .ok x ↔ Once reads items names x := by
  rw [required_ok, filterMap_one h]
  simp only [hp]
  rfl

theorem once_eq {items : Items} {names : List String} {x : Str} :
    required (given items names) = .ok x ↔ Once Eq items names x := by
  rw [required_ok]
  constructor
  · exact fun h => ⟨x, h, rfl⟩
  · rintro ⟨s, h, rfl⟩; exact h

theorem maybe_iff {α : Type} {p : Str → Option α} {reads : Str → α → Prop} (hp : ∀ s x, p s = some x ↔ reads s x)
    {items : Items} {names : List String} (h : ∀ v ∈ given items names, (p v).isSome) {x : Option α} :
    optionalFlag ((given items names).filterMap p) = .ok x ↔ Maybe reads items names x := by
  rw [optionalFlag_ok, filterMap_none h]
  simp only [filterMap_one h, hp]
  rfl

theorem maybe_eq {items : Items} {names : List String} {x : Option Str} :
    optionalFlag (given items names) = .ok x ↔ Maybe Eq items names x := by
  rw [optionalFlag_ok, Maybe]
  refine or_congr Iff.rfl (exists_congr fun v => and_congr Iff.rfl ?_)
  constructor
  · exact fun h => ⟨v, h, rfl⟩
  · rintro ⟨s, h, rfl⟩; exact h

theorem onceOr_iff {α : Type} {reads : Str → α → Prop} {items : Items} {names : List String} {d x : α} :
    OnceOr reads items names d x ↔ ∃ y, Maybe reads items names y ∧ x = y.getD d := by
  constructor
  · rintro (⟨h, rfl⟩ | h)
    · exact ⟨none, .inl ⟨h, rfl⟩, rfl⟩
    · exact ⟨some x, .inr ⟨x, rfl, h⟩, rfl⟩
  · rintro ⟨y, ⟨h, rfl⟩ | ⟨z, rfl, h⟩, rfl⟩
    · exact .inl ⟨h, rfl⟩
    · exact .inr h

theorem once_some {α : Type} {p : Str → Option α} {reads : Str → α → Prop} (hp : ∀ s x, p s = some x ↔ reads s x)
    {items : Items} {names : List String} {x : α} (h : Once reads items names x) : ∀ v ∈ given items names, (p v).isSome := by
  obtain ⟨s, h1, h2⟩ := h
  intro v hv
  rw [h1] at hv
  rw [List.mem_singleton.1 hv, (hp s x).2 h2]
  rfl

theorem maybe_some {α : Type} {p : Str → Option α} {reads : Str → α → Prop} (hp : ∀ s x, p s = some x ↔ reads s x)
    {items : Items} {names : List String} {x : Option α} (h : Maybe reads items names x) :
    ∀ v ∈ given items names, (p v).isSome := by
  rcases h with ⟨h, _⟩ | ⟨y, _, h⟩
  · rw [h]; simp
  · exact once_some hp h

theorem onceOr_some {α : Type} {p : Str → Option α} {reads : Str → α → Prop} (hp : ∀ s x, p s = some x ↔ reads s x)
    {items : Items} {names : List String} {d x : α} (h : OnceOr reads items names d x) :
    ∀ v ∈ given items names, (p v).isSome := by
  obtain ⟨y, h, _⟩ := onceOr_iff.1 h
  exact maybe_some hp h

end Tokengeex.Cli

import Verif.Proofs.Flags
import Verif.Props.CliHistory
/-
C84: what a command line asks for.
-/
namespace Tokengeex
open Spec Cli

variable {F : Type} {float : Str → Option F} {items : Items}

theorem Cli.only_iff (s : Sub) {names : List String} (h1 : ∀ a ∈ s.names, a ∈ names.map String.toList)
    (h2 : ∀ a ∈ names.map String.toList, a ∈ s.names) : (∀ p ∈ items, p.1 ∈ s.names) ↔ Only items names :=
  ⟨fun h p hp => h1 _ (h p hp), fun h p hp => h2 _ (h p hp)⟩

/-- What acceptance says about the values of a flag. -/
theorem Cli.accepted_flag {s : Sub} (h : Accepted float s items) {names : List String} {name : String} {short : Option Str} {ty : Ty}
    (hf : (name.toList, short, ty) ∈ s.flags) (hof : (kept s items).of name = given items names) :
    ∀ v ∈ given items names, ty.accepts float v = true := by
  intro v hv
  rw [← hof] at hv
  exact ((accepted_iff _ _ _).1 h).2 _ hf v (mem_of.1 hv)

theorem Cli.mem_given {s : Sub} {names : List String} {name : String} (hof : (kept s items).of name = given items names) {v : Str}
    (h : (name.toList, v) ∈ kept s items) : v ∈ given items names := hof ▸ mem_of.2 h

variable [TrainOps F] {line : Line F}

theorem Cli.prune_iff : (Accepted float .prune items ∧ record float (kept .prune items) .prune = .ok line) ↔
    Asks float literal "prune" items line := by
  have only := Cli.only_iff (items := items) .prune (names := ["-i", "--input", "-o", "--output", "-v", "--vocab-size",
    "--train", "--dropout", "--shrink-factor", "--em-subiters"]) (by decide) (by decide)
  have key : Only items ["-i", "--input", "-o", "--output", "-v", "--vocab-size", "--train", "--dropout", "--shrink-factor",
      "--em-subiters"] →
      (kept .prune items).of "--input" = given items ["-i", "--input"] ∧
      (kept .prune items).of "--output" = given items ["-o", "--output"] ∧
      (kept .prune items).of "--vocab-size" = given items ["-v", "--vocab-size"] ∧
      (kept .prune items).of "--train" = given items ["--train"] ∧
      (kept .prune items).of "--dropout" = given items ["--dropout"] ∧
      (kept .prune items).of "--shrink-factor" = given items ["--shrink-factor"] ∧
      (kept .prune items).of "--em-subiters" = given items ["--em-subiters"] := by
    intro h
    have h := only.2 h
    refine ⟨?_, ?_, ?_, ?_, ?_, ?_, ?_⟩ <;> exact Sub.long_decides .prune (by decide) h
  constructor
  · rintro ⟨hacc, hrec⟩
    have honly := only.1 ((accepted_iff _ _ _).1 hacc).1
    obtain ⟨k1, k2, k3, k4, k5, k6, k7⟩ := key honly
    have a3 := Cli.accepted_flag hacc (short := some "-v".toList) (ty := .usize) (by decide) k3
    have a5 := Cli.accepted_flag hacc (short := none) (ty := .f64) (by decide) k5
    have a6 := Cli.accepted_flag hacc (short := none) (ty := .f64) (by decide) k6
    have a7 := Cli.accepted_flag hacc (short := none) (ty := .usize) (by decide) k7
    simp only [record, k1, k2, k3, k4, k5, k6, k7] at hrec
    obtain ⟨x1, h1, hrec⟩ := except_bind_ok.1 hrec
    obtain ⟨x2, h2, hrec⟩ := except_bind_ok.1 hrec
    obtain ⟨x3, h3, hrec⟩ := except_bind_ok.1 hrec
    obtain ⟨x5, h5, hrec⟩ := except_bind_ok.1 hrec
    obtain ⟨x6, h6, hrec⟩ := except_bind_ok.1 hrec
    obtain ⟨x7, h7, hrec⟩ := except_bind_ok.1 hrec
    cases hrec
    refine .prune items _ honly (once_eq.1 h1) (once_eq.1 h2) ((once_iff parseUsize_iff a3).1 h3) rfl
      (onceOr_iff.2 ⟨x5, (maybe_iff (fun _ _ => Iff.rfl) a5).1 h5, rfl⟩)
      (onceOr_iff.2 ⟨x6, (maybe_iff (fun _ _ => Iff.rfl) a6).1 h6, rfl⟩)
      (onceOr_iff.2 ⟨x7, (maybe_iff parseUsize_iff a7).1 h7, rfl⟩)
  · intro h
    generalize hn : "prune" = name at h
    cases h with
    | prune _ a honly h1 h2 h3 h4 h5 h6 h7 =>
      obtain ⟨k1, k2, k3, k4, k5, k6, k7⟩ := key honly
      have a3 := once_some parseUsize_iff h3
      have a5 := onceOr_some (fun _ _ => Iff.rfl) h5
      have a6 := onceOr_some (fun _ _ => Iff.rfl) h6
      have a7 := onceOr_some parseUsize_iff h7
      refine ⟨(accepted_iff _ _ _).2 ⟨only.2 honly, ?_⟩, ?_⟩
      · simp only [Sub.flags, List.forall_mem_cons]
        refine ⟨?_, ?_, ?_, ?_, ?_, ?_, ?_, by simp⟩
        · exact fun _ _ => rfl
        · exact fun _ _ => rfl
        · exact fun v hv => a3 v (Cli.mem_given k3 hv)
        · exact fun _ _ => rfl
        · exact fun v hv => a5 v (Cli.mem_given k5 hv)
        · exact fun v hv => a6 v (Cli.mem_given k6 hv)
        · exact fun v hv => a7 v (Cli.mem_given k7 hv)
      · obtain ⟨y5, m5, e5⟩ := onceOr_iff.1 h5
        obtain ⟨y6, m6, e6⟩ := onceOr_iff.1 h6
        obtain ⟨y7, m7, e7⟩ := onceOr_iff.1 h7
        simp only [record, k1, k2, k3, k4, k5, k6, k7]
        rw [once_eq.2 h1, once_eq.2 h2, (once_iff parseUsize_iff a3).2 h3, (maybe_iff (fun _ _ => Iff.rfl) a5).2 m5,
          (maybe_iff (fun _ _ => Iff.rfl) a6).2 m6, (maybe_iff parseUsize_iff a7).2 m7]
        cases a
        simp only at h4 e5 e6 e7
        subst h4 e5 e6 e7
        rfl
    | todo _ _ _ _ h => subst hn; simp at h
    | _ => simp at hn

theorem Cli.generate_iff : (Accepted float .generate items ∧ record float (kept .generate items) .generate = .ok line) ↔
    Asks float literal "generate" items line := by
  have only := Cli.only_iff (items := items) .generate (names := ["-v", "--vocab-size", "-o", "--output", "--processor",
    "--train", "--special", "--suggested", "--added", "--allow", "--split", "--insert-probability", "--max-token-length"]) (by
    decide) (by decide)
  have key : Only items ["-v", "--vocab-size", "-o", "--output", "--processor", "--train", "--special", "--suggested",
      "--added", "--allow", "--split", "--insert-probability", "--max-token-length"] →
      (kept .generate items).of "--vocab-size" = given items ["-v", "--vocab-size"] ∧
      (kept .generate items).of "--output" = given items ["-o", "--output"] ∧
      (kept .generate items).of "--processor" = given items ["--processor"] ∧
      (kept .generate items).of "--train" = given items ["--train"] ∧
      (kept .generate items).of "--special" = given items ["--special"] ∧
      (kept .generate items).of "--suggested" = given items ["--suggested"] ∧
      (kept .generate items).of "--added" = given items ["--added"] ∧
      (kept .generate items).of "--allow" = given items ["--allow"] ∧
      (kept .generate items).of "--split" = given items ["--split"] ∧
      (kept .generate items).of "--insert-probability" = given items ["--insert-probability"] ∧
      (kept .generate items).of "--max-token-length" = given items ["--max-token-length"] := by
    intro h
    have h := only.2 h
    refine ⟨?_, ?_, ?_, ?_, ?_, ?_, ?_, ?_, ?_, ?_, ?_⟩ <;> exact Sub.long_decides .generate (by decide) h
  constructor
  · rintro ⟨hacc, hrec⟩
    have honly := only.1 ((accepted_iff _ _ _).1 hacc).1
    obtain ⟨k1, k2, k3, k4, k5, k6, k7, k8, k9, k10, k11⟩ := key honly
    have a1 := Cli.accepted_flag hacc (short := some "-v".toList) (ty := .usize) (by decide) k1
    have a10 := Cli.accepted_flag hacc (short := none) (ty := .f64) (by decide) k10
    have a11 := Cli.accepted_flag hacc (short := none) (ty := .usize) (by decide) k11
    simp only [record, k1, k2, k3, k4, k5, k6, k7, k8, k9, k10, k11] at hrec
    obtain ⟨x1, h1, hrec⟩ := except_bind_ok.1 hrec
    obtain ⟨x2, h2, hrec⟩ := except_bind_ok.1 hrec
    obtain ⟨x8, h8, hrec⟩ := except_bind_ok.1 hrec
    obtain ⟨x9, h9, hrec⟩ := except_bind_ok.1 hrec
    obtain ⟨x10, h10, hrec⟩ := except_bind_ok.1 hrec
    obtain ⟨x11, h11, hrec⟩ := except_bind_ok.1 hrec
    cases hrec
    exact .generate items _ honly ((once_iff parseUsize_iff a1).1 h1) (once_eq.1 h2) rfl rfl rfl rfl rfl (maybe_eq.1 h8)
      (maybe_eq.1 h9) (onceOr_iff.2 ⟨x10, (maybe_iff (fun _ _ => Iff.rfl) a10).1 h10, rfl⟩) (onceOr_iff.2 ⟨x11, (maybe_iff
      parseUsize_iff a11).1 h11, rfl⟩)
  · intro h
    generalize hn : "generate" = name at h
    cases h with
    | generate _ a honly h1 h2 h3 h4 h5 h6 h7 h8 h9 h10 h11 =>
      obtain ⟨k1, k2, k3, k4, k5, k6, k7, k8, k9, k10, k11⟩ := key honly
      have a1 := once_some parseUsize_iff h1
      have a10 := onceOr_some (fun _ _ => Iff.rfl) h10
      have a11 := onceOr_some parseUsize_iff h11
      refine ⟨(accepted_iff _ _ _).2 ⟨only.2 honly, ?_⟩, ?_⟩
      · simp only [Sub.flags, List.forall_mem_cons]
        refine ⟨?_, ?_, ?_, ?_, ?_, ?_, ?_, ?_, ?_, ?_, ?_, by simp⟩
        · exact fun v hv => a1 v (Cli.mem_given k1 hv)
        · exact fun _ _ => rfl
        · exact fun _ _ => rfl
        · exact fun _ _ => rfl
        · exact fun _ _ => rfl
        · exact fun _ _ => rfl
        · exact fun _ _ => rfl
        · exact fun _ _ => rfl
        · exact fun _ _ => rfl
        · exact fun v hv => a10 v (Cli.mem_given k10 hv)
        · exact fun v hv => a11 v (Cli.mem_given k11 hv)
      · obtain ⟨y10, m10, e10⟩ := onceOr_iff.1 h10
        obtain ⟨y11, m11, e11⟩ := onceOr_iff.1 h11
        simp only [record, k1, k2, k3, k4, k5, k6, k7, k8, k9, k10, k11]
        rw [(once_iff parseUsize_iff a1).2 h1, once_eq.2 h2, maybe_eq.2 h8, maybe_eq.2 h9, (maybe_iff (fun _ _ => Iff.rfl)
          a10).2 m10, (maybe_iff parseUsize_iff a11).2 m11]
        cases a
        simp only at h3 h4 h5 h6 h7 e10 e11
        subst h3 h4 h5 h6 h7 e10 e11
        rfl
    | todo _ _ _ _ h => subst hn; simp at h
    | _ => simp at hn

theorem Cli.filter_iff : (Accepted float .filter items ∧ record float (kept .filter items) .filter = .ok line) ↔
    Asks float literal "filter" items line := by
  have only := Cli.only_iff (items := items) .filter (names := ["-i", "--input", "-o", "--output", "-v", "--vocab-size",
    "--min-score", "--force"]) (by decide) (by decide)
  have key : Only items ["-i", "--input", "-o", "--output", "-v", "--vocab-size", "--min-score", "--force"] →
      (kept .filter items).of "--input" = given items ["-i", "--input"] ∧
      (kept .filter items).of "--output" = given items ["-o", "--output"] ∧
      (kept .filter items).of "--vocab-size" = given items ["-v", "--vocab-size"] ∧
      (kept .filter items).of "--min-score" = given items ["--min-score"] ∧
      (kept .filter items).of "--force" = given items ["--force"] := by
    intro h
    have h := only.2 h
    refine ⟨?_, ?_, ?_, ?_, ?_⟩ <;> exact Sub.long_decides .filter (by decide) h
  constructor
  · rintro ⟨hacc, hrec⟩
    have honly := only.1 ((accepted_iff _ _ _).1 hacc).1
    obtain ⟨k1, k2, k3, k4, k5⟩ := key honly
    have a3 := Cli.accepted_flag hacc (short := some "-v".toList) (ty := .usize) (by decide) k3
    have a4 := Cli.accepted_flag hacc (short := none) (ty := .f64) (by decide) k4
    have a5 := Cli.accepted_flag hacc (short := none) (ty := .bool) (by decide) k5
    simp only [record, k1, k2, k3, k4, k5] at hrec
    obtain ⟨x1, h1, hrec⟩ := except_bind_ok.1 hrec
    obtain ⟨x2, h2, hrec⟩ := except_bind_ok.1 hrec
    obtain ⟨x3, h3, hrec⟩ := except_bind_ok.1 hrec
    obtain ⟨x4, h4, hrec⟩ := except_bind_ok.1 hrec
    obtain ⟨x5, h5, hrec⟩ := except_bind_ok.1 hrec
    cases hrec
    exact .filter items _ honly (once_eq.1 h1) (once_eq.1 h2) (onceOr_iff.2 ⟨x3, (maybe_iff parseUsize_iff a3).1 h3, rfl⟩)
      ((maybe_iff (fun _ _ => Iff.rfl) a4).1 h4) (onceOr_iff.2 ⟨x5, (maybe_iff parseBool_iff a5).1 h5, rfl⟩)
  · intro h
    generalize hn : "filter" = name at h
    cases h with
    | filter _ a honly h1 h2 h3 h4 h5 =>
      obtain ⟨k1, k2, k3, k4, k5⟩ := key honly
      have a3 := onceOr_some parseUsize_iff h3
      have a4 := maybe_some (fun _ _ => Iff.rfl) h4
      have a5 := onceOr_some parseBool_iff h5
      refine ⟨(accepted_iff _ _ _).2 ⟨only.2 honly, ?_⟩, ?_⟩
      · simp only [Sub.flags, List.forall_mem_cons]
        refine ⟨?_, ?_, ?_, ?_, ?_, by simp⟩
        · exact fun _ _ => rfl
        · exact fun _ _ => rfl
        · exact fun v hv => a3 v (Cli.mem_given k3 hv)
        · exact fun v hv => a4 v (Cli.mem_given k4 hv)
        · exact fun v hv => a5 v (Cli.mem_given k5 hv)
      · obtain ⟨y3, m3, e3⟩ := onceOr_iff.1 h3
        obtain ⟨y5, m5, e5⟩ := onceOr_iff.1 h5
        simp only [record, k1, k2, k3, k4, k5]
        rw [once_eq.2 h1, once_eq.2 h2, (maybe_iff parseUsize_iff a3).2 m3, (maybe_iff (fun _ _ => Iff.rfl) a4).2 h4,
          (maybe_iff parseBool_iff a5).2 m5]
        cases a
        simp only at e3 e5
        subst e3 e5
        rfl
    | todo _ _ _ _ h => subst hn; simp at h
    | _ => simp at hn

theorem Cli.merge_iff : (Accepted float .merge items ∧ record float (kept .merge items) .merge = .ok line) ↔
    Asks float literal "merge" items line := by
  have only := Cli.only_iff (items := items) .merge (names := ["-i", "--input", "-o", "--output", "--train", "--allow",
    "--num-merges", "--step", "--scale-factor", "--max-token-length"]) (by decide) (by decide)
  have key : Only items ["-i", "--input", "-o", "--output", "--train", "--allow", "--num-merges", "--step", "--scale-factor",
      "--max-token-length"] →
      (kept .merge items).of "--input" = given items ["-i", "--input"] ∧
      (kept .merge items).of "--output" = given items ["-o", "--output"] ∧
      (kept .merge items).of "--train" = given items ["--train"] ∧
      (kept .merge items).of "--allow" = given items ["--allow"] ∧
      (kept .merge items).of "--num-merges" = given items ["--num-merges"] ∧
      (kept .merge items).of "--step" = given items ["--step"] ∧
      (kept .merge items).of "--scale-factor" = given items ["--scale-factor"] ∧
      (kept .merge items).of "--max-token-length" = given items ["--max-token-length"] := by
    intro h
    have h := only.2 h
    refine ⟨?_, ?_, ?_, ?_, ?_, ?_, ?_, ?_⟩ <;> exact Sub.long_decides .merge (by decide) h
  constructor
  · rintro ⟨hacc, hrec⟩
    have honly := only.1 ((accepted_iff _ _ _).1 hacc).1
    obtain ⟨k1, k2, k3, k4, k5, k6, k7, k8⟩ := key honly
    have a5 := Cli.accepted_flag hacc (short := none) (ty := .usize) (by decide) k5
    have a6 := Cli.accepted_flag hacc (short := none) (ty := .usize) (by decide) k6
    have a7 := Cli.accepted_flag hacc (short := none) (ty := .f64) (by decide) k7
    have a8 := Cli.accepted_flag hacc (short := none) (ty := .usize) (by decide) k8
    simp only [record, k1, k2, k3, k4, k5, k6, k7, k8] at hrec
    obtain ⟨x1, h1, hrec⟩ := except_bind_ok.1 hrec
    obtain ⟨x2, h2, hrec⟩ := except_bind_ok.1 hrec
    obtain ⟨x4, h4, hrec⟩ := except_bind_ok.1 hrec
    obtain ⟨x5, h5, hrec⟩ := except_bind_ok.1 hrec
    obtain ⟨x6, h6, hrec⟩ := except_bind_ok.1 hrec
    obtain ⟨x7, h7, hrec⟩ := except_bind_ok.1 hrec
    obtain ⟨x8, h8, hrec⟩ := except_bind_ok.1 hrec
    cases hrec
    exact .merge items _ honly (once_eq.1 h1) (once_eq.1 h2) rfl (once_eq.1 h4) (onceOr_iff.2 ⟨x5, (maybe_iff parseUsize_iff
      a5).1 h5, rfl⟩) (onceOr_iff.2 ⟨x6, (maybe_iff parseUsize_iff a6).1 h6, rfl⟩) (onceOr_iff.2 ⟨x7, (maybe_iff (fun _ _ =>
      Iff.rfl) a7).1 h7, rfl⟩) (onceOr_iff.2 ⟨x8, (maybe_iff parseUsize_iff a8).1 h8, rfl⟩)
  · intro h
    generalize hn : "merge" = name at h
    cases h with
    | merge _ a honly h1 h2 h3 h4 h5 h6 h7 h8 =>
      obtain ⟨k1, k2, k3, k4, k5, k6, k7, k8⟩ := key honly
      have a5 := onceOr_some parseUsize_iff h5
      have a6 := onceOr_some parseUsize_iff h6
      have a7 := onceOr_some (fun _ _ => Iff.rfl) h7
      have a8 := onceOr_some parseUsize_iff h8
      refine ⟨(accepted_iff _ _ _).2 ⟨only.2 honly, ?_⟩, ?_⟩
      · simp only [Sub.flags, List.forall_mem_cons]
        refine ⟨?_, ?_, ?_, ?_, ?_, ?_, ?_, ?_, by simp⟩
        · exact fun _ _ => rfl
        · exact fun _ _ => rfl
        · exact fun _ _ => rfl
        · exact fun _ _ => rfl
        · exact fun v hv => a5 v (Cli.mem_given k5 hv)
        · exact fun v hv => a6 v (Cli.mem_given k6 hv)
        · exact fun v hv => a7 v (Cli.mem_given k7 hv)
        · exact fun v hv => a8 v (Cli.mem_given k8 hv)
      · obtain ⟨y5, m5, e5⟩ := onceOr_iff.1 h5
        obtain ⟨y6, m6, e6⟩ := onceOr_iff.1 h6
        obtain ⟨y7, m7, e7⟩ := onceOr_iff.1 h7
        obtain ⟨y8, m8, e8⟩ := onceOr_iff.1 h8
        simp only [record, k1, k2, k3, k4, k5, k6, k7, k8]
        rw [once_eq.2 h1, once_eq.2 h2, once_eq.2 h4, (maybe_iff parseUsize_iff a5).2 m5, (maybe_iff parseUsize_iff a6).2 m6,
          (maybe_iff (fun _ _ => Iff.rfl) a7).2 m7, (maybe_iff parseUsize_iff a8).2 m8]
        cases a
        simp only at h3 e5 e6 e7 e8
        subst h3 e5 e6 e7 e8
        rfl
    | todo _ _ _ _ h => subst hn; simp at h
    | _ => simp at hn

theorem Cli.mine_iff : (Accepted float .mine items ∧ record float (kept .mine items) .mine = .ok line) ↔
    Asks float literal "mine" items line := by
  have only := Cli.only_iff (items := items) .mine (names := ["-n", "--num-idioms", "-o", "--output", "--train", "-p",
    "--pattern"]) (by decide) (by decide)
  have key : Only items ["-n", "--num-idioms", "-o", "--output", "--train", "-p", "--pattern"] →
      (kept .mine items).of "--num-idioms" = given items ["-n", "--num-idioms"] ∧
      (kept .mine items).of "--output" = given items ["-o", "--output"] ∧
      (kept .mine items).of "--train" = given items ["--train"] ∧
      (kept .mine items).of "--pattern" = given items ["-p", "--pattern"] := by
    intro h
    have h := only.2 h
    refine ⟨?_, ?_, ?_, ?_⟩ <;> exact Sub.long_decides .mine (by decide) h
  constructor
  · rintro ⟨hacc, hrec⟩
    have honly := only.1 ((accepted_iff _ _ _).1 hacc).1
    obtain ⟨k1, k2, k3, k4⟩ := key honly
    have a1 := Cli.accepted_flag hacc (short := some "-n".toList) (ty := .usize) (by decide) k1
    simp only [record, k1, k2, k3, k4] at hrec
    obtain ⟨x1, h1, hrec⟩ := except_bind_ok.1 hrec
    obtain ⟨x2, h2, hrec⟩ := except_bind_ok.1 hrec
    cases hrec
    exact .mine items _ honly ((once_iff parseUsize_iff a1).1 h1) (once_eq.1 h2) rfl rfl
  · intro h
    generalize hn : "mine" = name at h
    cases h with
    | mine _ a honly h1 h2 h3 h4 =>
      obtain ⟨k1, k2, k3, k4⟩ := key honly
      have a1 := once_some parseUsize_iff h1
      refine ⟨(accepted_iff _ _ _).2 ⟨only.2 honly, ?_⟩, ?_⟩
      · simp only [Sub.flags, List.forall_mem_cons]
        refine ⟨?_, ?_, ?_, ?_, by simp⟩
        · exact fun v hv => a1 v (Cli.mem_given k1 hv)
        · exact fun _ _ => rfl
        · exact fun _ _ => rfl
        · exact fun _ _ => rfl
      · simp only [record, k1, k2, k3, k4]
        rw [(once_iff parseUsize_iff a1).2 h1, once_eq.2 h2]
        cases a
        simp only at h3 h4
        subst h3 h4
        rfl
    | todo _ _ _ _ h => subst hn; simp at h
    | _ => simp at hn

theorem Cli.regex_iff : (Accepted float .regex items ∧ record float (kept .regex items) .regex = .ok line) ↔
    Asks float literal "regex" items line := by
  have only := Cli.only_iff (items := items) .regex (names := ["-o", "--output", "-p", "--pattern"]) (by decide) (by decide)
  have key : Only items ["-o", "--output", "-p", "--pattern"] →
      (kept .regex items).of "--output" = given items ["-o", "--output"] ∧
      (kept .regex items).of "--pattern" = given items ["-p", "--pattern"] := by
    intro h
    have h := only.2 h
    refine ⟨?_, ?_⟩ <;> exact Sub.long_decides .regex (by decide) h
  have hacc' : ∀ p : Prop, Only items ["-o", "--output", "-p", "--pattern"] → p → Accepted float .regex items := by
    intro _ h _
    refine (accepted_iff _ _ _).2 ⟨only.2 h, ?_⟩
    simp only [Sub.flags, List.forall_mem_cons]
    exact ⟨fun _ _ => rfl, fun _ _ => rfl, by simp⟩
  constructor
  · rintro ⟨hacc, hrec⟩
    have honly := only.1 ((accepted_iff _ _ _).1 hacc).1
    obtain ⟨k1, k2⟩ := key honly
    simp only [record, k1, k2] at hrec
    obtain ⟨x1, h1, hrec⟩ := except_bind_ok.1 hrec
    have hm := maybe_eq.1 h1
    cases x1 with
    | none =>
      cases hrec
      refine .patterns items fun p hp => ?_
      rcases hm with ⟨hm, _⟩ | ⟨y, hy, _⟩
      · have hp1 := honly p hp
        have : p.1 ∉ ["-o", "--output"].map String.toList := by
          intro hc
          have : p.2 ∈ given items ["-o", "--output"] := List.mem_filterMap.2 ⟨p, hp, by rw [if_pos hc]⟩
          rw [hm] at this
          cases this
        simp only [List.map_cons, List.map_nil, List.mem_cons, List.not_mem_nil, or_false, not_or] at hp1 this ⊢
        rcases hp1 with h | h | h | h
        · exact absurd h this.1
        · exact absurd h this.2
        · exact .inl h
        · exact .inr h
      · cases hy
    | some out =>
      cases hrec
      rcases hm with ⟨_, hm⟩ | ⟨y, hy, hm⟩
      · cases hm
      · cases hy
        exact .regex items _ honly hm rfl
  · intro h
    generalize hn : "regex" = name at h
    cases h with
    | regex _ a honly h1 h2 =>
      obtain ⟨k1, k2⟩ := key honly
      refine ⟨hacc' True honly trivial, ?_⟩
      simp only [record, k1, k2]
      rw [maybe_eq.2 (.inr ⟨_, rfl, h1⟩)]
      cases a
      simp only at h2
      subst h2
      rfl
    | patterns _ h =>
      have honly : Only items ["-o", "--output", "-p", "--pattern"] := by
        intro p hp
        have := h p hp
        simp only [List.map_cons, List.map_nil, List.mem_cons, List.not_mem_nil, or_false] at this ⊢
        exact .inr (.inr this)
      obtain ⟨k1, k2⟩ := key honly
      refine ⟨hacc' True honly trivial, ?_⟩
      have hnone : given items ["-o", "--output"] = [] := by
        refine List.filterMap_eq_nil_iff.2 fun p hp => if_neg ?_
        have := h p hp
        simp only [List.map_cons, List.map_nil, List.mem_cons, List.not_mem_nil, or_false] at this ⊢
        rcases this with e | e <;> rw [e] <;> decide
      simp only [record, k1, k2, hnone]
      rfl
    | todo _ _ _ _ h => subst hn; simp at h
    | _ => simp at hn

theorem Cli.todo_iff (s : Sub) (hs : s = .encode ∨ s = .decode) (name : String) (hname : s.name = name.toList)
    (hn : name = "encode" ∨ name = "decode") :
    (Accepted float s items ∧ record float (kept s items) s = .ok line) ↔ Asks float literal name items line := by
  have only := Cli.only_iff (items := items) s (names := ["-v", "--vocab", "-i", "--input"])
    (by rcases hs with rfl | rfl <;> decide) (by rcases hs with rfl | rfl <;> decide)
  have key : Only items ["-v", "--vocab", "-i", "--input"] →
      (kept s items).of "--vocab" = given items ["-v", "--vocab"] ∧
      (kept s items).of "--input" = given items ["-i", "--input"] := by
    intro h
    have h := only.2 h
    rcases hs with rfl | rfl <;>
      (refine ⟨?_, ?_⟩ <;> exact Sub.long_decides _ (by decide) h)
  have hrecord : record float (kept s items) s = (do
      let _ ← required ((kept s items).of "--vocab")
      let _ ← optionalFlag ((kept s items).of "--input")
      pure .todo) := by rcases hs with rfl | rfl <;> rfl
  constructor
  · rintro ⟨hacc, hrec⟩
    have honly := only.1 ((accepted_iff _ _ _).1 hacc).1
    obtain ⟨k1, k2⟩ := key honly
    rw [hrecord, k1, k2] at hrec
    obtain ⟨x1, h1, hrec⟩ := except_bind_ok.1 hrec
    obtain ⟨x2, h2, hrec⟩ := except_bind_ok.1 hrec
    cases hrec
    exact .todo name items x1 x2 hn honly (once_eq.1 h1) (maybe_eq.1 h2)
  · intro h
    cases h with
    | todo _ _ vocab input h honly h1 h2 =>
      obtain ⟨k1, k2⟩ := key honly
      refine ⟨(accepted_iff _ _ _).2 ⟨only.2 honly, ?_⟩, ?_⟩
      · have : s.flags = [("--vocab".toList, some "-v".toList, .string), ("--input".toList, some "-i".toList, .string)] := by
          rcases hs with rfl | rfl <;> rfl
        rw [this]
        simp only [List.forall_mem_cons]
        exact ⟨fun _ _ => rfl, fun _ _ => rfl, by simp⟩
      · rw [hrecord, k1, k2, once_eq.2 h1, maybe_eq.2 h2]
        rfl
    | _ => simp at hn

theorem Cli.asks_sub {sub : String} (h : Asks float literal sub items line) : ∃ s : Sub, sub.toList = s.name ∧
    Accepted float s items ∧ record float (kept s items) s = .ok line := by
  have h' := h
  cases h' with
  | generate => exact ⟨.generate, rfl, Cli.generate_iff.2 h⟩
  | prune => exact ⟨.prune, rfl, Cli.prune_iff.2 h⟩
  | filter => exact ⟨.filter, rfl, Cli.filter_iff.2 h⟩
  | merge => exact ⟨.merge, rfl, Cli.merge_iff.2 h⟩
  | regex => exact ⟨.regex, rfl, Cli.regex_iff.2 h⟩
  | patterns => exact ⟨.regex, rfl, Cli.regex_iff.2 h⟩
  | mine => exact ⟨.mine, rfl, Cli.mine_iff.2 h⟩
  | todo _ _ _ _ hn =>
    rcases hn with rfl | rfl
    · exact ⟨.encode, rfl, (Cli.todo_iff .encode (.inl rfl) "encode" rfl (.inl rfl)).2 h⟩
    · exact ⟨.decode, rfl, (Cli.todo_iff .decode (.inr rfl) "decode" rfl (.inr rfl)).2 h⟩

theorem Cli.sub_asks {s : Sub} (h : Accepted float s items ∧ record float (kept s items) s = .ok line) :
    ∃ sub : String, s.name = sub.toList ∧ Asks float literal sub items line := by
  cases s with
  | generate => exact ⟨_, rfl, Cli.generate_iff.1 h⟩
  | prune => exact ⟨_, rfl, Cli.prune_iff.1 h⟩
  | filter => exact ⟨_, rfl, Cli.filter_iff.1 h⟩
  | merge => exact ⟨_, rfl, Cli.merge_iff.1 h⟩
  | regex => exact ⟨_, rfl, Cli.regex_iff.1 h⟩
  | mine => exact ⟨_, rfl, Cli.mine_iff.1 h⟩
  | encode => exact ⟨_, rfl, (Cli.todo_iff .encode (.inl rfl) "encode" rfl (.inl rfl)).1 h⟩
  | decode => exact ⟨_, rfl, (Cli.todo_iff .decode (.inr rfl) "decode" rfl (.inr rfl)).1 h⟩

/-- **C84** A command line is accepted exactly if it is a subcommand followed by its flags, each with a value, such that what
is required is given once, what is optional at most once, and numbers are numbers; and then it asks for what the usage text
says: values of repeated flags in the order they are given, the documented defaults for what is left out. -/
theorem C84_reads (float : Str → Option F) (args : List Str) (line : Line F) :
    parseArgs float args = .ok line ↔
      ∃ sub items, Reads args sub items ∧ Asks float (fun p q => RealOps.div (RealOps.ofNat p) (RealOps.ofNat q)) sub items line := by
  constructor
  · intro h
    obtain ⟨⟨st, values⟩, h1, h2⟩ := except_bind_ok.1 h
    cases st with
    | none => cases h2
    | some s =>
      obtain ⟨items, h3, h4, rfl⟩ := (scan_none float args s values).1 h1
      obtain ⟨sub, hsub, hasks⟩ := Cli.sub_asks ⟨h4, h2⟩
      rw [hsub] at h3
      exact ⟨sub, items, h3, hasks⟩
  · rintro ⟨sub, items, h1, h2⟩
    obtain ⟨s, hs, hacc, hrec⟩ := Cli.asks_sub h2
    rw [Reads, hs] at h1
    exact except_bind_ok.2 ⟨_, (scan_none float args s _).2 ⟨items, h1, hacc, rfl⟩, hrec⟩

/-- **C84** However the arguments are read, they ask for one thing. -/
theorem C84_unambiguous (float : Str → Option F) (args : List Str) (sub sub' : String) (items items' : Items) (line line' : Line F)
    (h : Reads args sub items) (h' : Reads args sub' items')
    (ha : Asks float (fun p q => RealOps.div (RealOps.ofNat p) (RealOps.ofNat q)) sub items line)
    (ha' : Asks float (fun p q => RealOps.div (RealOps.ofNat p) (RealOps.ofNat q)) sub' items' line') : line = line' := by
  have h1 := (C84_reads float args line).2 ⟨sub, items, h, ha⟩
  rw [(C84_reads float args line').2 ⟨sub', items', h', ha'⟩] at h1
  exact (Except.ok.inj h1).symm

omit [TrainOps F] in
theorem Cli.scan_help (float : Str → Option F) : ∀ (n : Nat) (args : List Str) (st : Option Sub) (dd : Bool) (values : Values),
    args.length ≤ n → scan float st dd values args = .error .help → "--help".toList ∈ args ∨ "-h".toList ∈ args := by
  intro n
  induction n using Nat.strongRecOn with
  | ind n ih =>
  intro args st dd values hlen h
  match args, hlen, h with
  | [], _, h => rw [scan.eq_def] at h; cases h
  | a :: rest, hlen, h =>
    rw [scan.eq_def] at h
    dsimp only at h
    simp only [List.length_cons] at hlen
    have cont : ∀ (k : Nat) (r : List Str) (st : Option Sub) (dd : Bool) (values : Values), r.length + k = rest.length →
        (∀ x ∈ r, x ∈ rest) → scan float st dd values r = .error .help → "--help".toList ∈ a :: rest ∨ "-h".toList ∈ a :: rest := by
      intro k r st dd values hk hsub hr
      rcases ih (n - 1) (by omega) r st dd values (by omega) hr with h | h
      · exact .inl (List.mem_cons_of_mem _ (hsub _ h))
      · exact .inr (List.mem_cons_of_mem _ (hsub _ h))
    by_cases c1 : (!dd && a == "--".toList) = true
    · rw [if_pos c1] at h
      cases rest with
      | nil => cases h
      | cons b rest =>
        simp only at h
        cases st with
        | some s => cases h
        | none =>
          cases hs : Sub.ofArg b with
          | none => rw [hs] at h; cases h
          | some s =>
            rw [hs] at h
            exact cont 1 rest _ _ _ rfl (fun x hx => List.mem_cons_of_mem _ hx) h
    · rw [if_neg c1] at h
      by_cases c2 : (!dd && a.head? == some '-') = true
      · rw [if_pos c2] at h
        by_cases c3 : (a == "--help".toList || a == "-h".toList) = true
        · simp only [Bool.or_eq_true, beq_iff_eq] at c3
          rcases c3 with rfl | rfl
          · exact .inl (by simp)
          · exact .inr (by simp)
        · rw [if_neg c3] at h
          generalize st.bind (fun s => s.flag a) = f at h
          cases f with
          | none => cases h
          | some f =>
            obtain ⟨name, sh, ty⟩ := f
            cases rest with
            | nil => cases h
            | cons v rest =>
              simp only at h
              by_cases c4 : ty.accepts float v = true
              · rw [if_pos c4] at h
                exact cont 1 rest _ _ _ rfl (fun x hx => List.mem_cons_of_mem _ hx) h
              · rw [if_neg c4] at h; cases h
      · rw [if_neg c2] at h
        cases st with
        | some s => cases h
        | none =>
          cases hs : Sub.ofArg a with
          | none => rw [hs] at h; cases h
          | some s =>
            rw [hs] at h
            exact cont 0 rest _ _ _ rfl (fun x hx => hx) h

omit [TrainOps F] in
/-- What a command writes to is what `--output` says. -/
theorem Cli.asks_output {fraction : Nat → Nat → F} {sub : String} {cmd : Command F}
    (h : Asks float fraction sub items (.run cmd)) : given items ["-o", "--output"] = [cmd.output] := by
  have once : ∀ {x : Str}, Once Eq items ["-o", "--output"] x → given items ["-o", "--output"] = [x] := by
    rintro x ⟨s, hs, rfl⟩; exact hs
  cases h with
  | generate _ a _ _ h => exact once h
  | prune _ a _ _ h => exact once h
  | filter _ a _ _ h => exact once h
  | merge _ a _ _ h => exact once h
  | regex _ a _ h => exact once h
  | mine _ a _ _ h => exact once h

/-- **C84** What running the program does to the files: nothing if the command line cannot be read (exit code 2, or 0 after
`--help` or `-h`), if it only asks for the list of patterns, or if it asks for what is not implemented; otherwise it does
what the command does, and changes no file except the one given by `-o` or `--output`. -/
theorem C84_main [Mul F] (env : Env F) (float : Str → Option F) (args : List Str) (fs fs' : Files) (code : Nat)
    (h : Main env float args fs code fs') :
    (¬ (∃ sub items line, Reads args sub items ∧
        Asks float (fun p q => RealOps.div (RealOps.ofNat p) (RealOps.ofNat q)) sub items line) ∧ fs' = fs ∧
      (code = 2 ∨ (code = 0 ∧ ("--help".toList ∈ args ∨ "-h".toList ∈ args)))) ∨
    ∃ sub items line, Reads args sub items ∧
      Asks float (fun p q => RealOps.div (RealOps.ofNat p) (RealOps.ofNat q)) sub items line ∧
      ((line = .printPatterns ∧ code = 0 ∧ fs' = fs) ∨ (line = .todo ∧ code = 101 ∧ fs' = fs) ∨
        ∃ cmd out, line = .run cmd ∧ given items ["-o", "--output"] = [out] ∧ (∀ p, p ≠ out → fs' p = fs p) ∧
          ((code = 0 ∧ Runs env cmd fs fs') ∨ (code = 101 ∧ Stops env cmd fs fs'))) := by
  have none : ∀ e, parseArgs float args = .error e → ¬ ∃ sub items line, Reads args sub items ∧
      Asks float (fun p q => RealOps.div (RealOps.ofNat p) (RealOps.ofNat q)) sub items line := by
    rintro e he ⟨sub, items, line, h1, h2⟩
    rw [(C84_reads float args line).2 ⟨sub, items, h1, h2⟩] at he
    cases he
  have written : ∀ {cmd : Command F} {fs' : Files}, (Runs env cmd fs fs' ∨ Stops env cmd fs fs') →
      ∀ p, p ≠ cmd.output → fs' p = fs p := by
    rintro cmd fs' (⟨contents, _, rfl⟩ | rfl | ⟨contents, k, _, rfl⟩) p hp
    · exact write_other hp
    · rfl
    · exact write_other hp
  cases h with
  | help he =>
    refine .inl ⟨none _ he, rfl, .inr ⟨rfl, ?_⟩⟩
    rw [parseArgs] at he
    cases hs : scan float Option.none false [] args with
    | error e =>
      rw [hs] at he
      cases he
      exact Cli.scan_help float args.length args _ _ _ (Nat.le_refl _) hs
    | ok r =>
      exfalso
      rw [hs] at he
      obtain ⟨st, values⟩ := r
      cases st with
      | none => cases he
      | some s => exact Cli.record_help float values s he
  | usage he => exact .inl ⟨none _ he, rfl, .inl rfl⟩
  | printPatterns he =>
    obtain ⟨sub, items, h1, h2⟩ := (C84_reads float args _).1 he
    exact .inr ⟨sub, items, _, h1, h2, .inl ⟨rfl, rfl, rfl⟩⟩
  | todo he =>
    obtain ⟨sub, items, h1, h2⟩ := (C84_reads float args _).1 he
    exact .inr ⟨sub, items, _, h1, h2, .inr (.inl ⟨rfl, rfl, rfl⟩)⟩
  | run he hr =>
    obtain ⟨sub, items, h1, h2⟩ := (C84_reads float args _).1 he
    exact .inr ⟨sub, items, _, h1, h2, .inr (.inr ⟨_, _, rfl, Cli.asks_output h2, written (.inl hr), .inl ⟨rfl, hr⟩⟩)⟩
  | panic he hr =>
    obtain ⟨sub, items, h1, h2⟩ := (C84_reads float args _).1 he
    exact .inr ⟨sub, items, _, h1, h2, .inr (.inr ⟨_, _, rfl, Cli.asks_output h2, written (.inr hr), .inr ⟨rfl, hr⟩⟩)⟩

/-- **C84** `--force` is not a switch: without a value the command line is refused. -/
theorem C84_force (float : Str → Option F) (items : Items) (line : Line F) :
    parseArgs float ("filter".toList :: Spec.written items ++ ["--force".toList]) ≠ .ok line := by
  intro h
  obtain ⟨sub, items', h1, h2⟩ := (C84_reads float _ _).1 h
  have len : ∀ l : Items, (Spec.written l).length = 2 * l.length := by
    intro l
    induction l with
    | nil => rfl
    | cons p l ih => rw [written_cons, List.length_cons, List.length_cons, ih, List.length_cons]; omega
  rcases h1 with h1 | h1 | ⟨_, h1⟩
  · have := congrArg List.length h1
    simp only [List.length_append, List.length_cons, List.length_nil, len] at this
    omega
  · have := congrArg List.getLast? h1
    simp only [List.getLast?_append, List.getLast?_singleton, Option.some_or] at this
    revert this
    decide
  · have := (List.cons.inj h1).1
    revert this
    decide

/-- **C84** Let the program be run any number of times with any command lines in which the argument `--force` does not occur,
starting with files among which every tokenizer has all bytes as protected tokens, and with tokenizers of fewer than 2³² - 1
tokens.  Then every tokenizer that loads encodes every text, and decodes it back to the processed text. -/
theorem C84_history [Mul F] (env : Env F) (laws : EnvLaws env) (float : Str → Option F) (fs₀ fs : Files)
    (hstart : ∀ path t, fromFile env.numbers fs₀ path = .ok t → Complete t.model.vocab)
    (h : Relation.ReflTransGen (fun a b => ∃ args code, "--force".toList ∉ args ∧
      (∀ path t, fromFile env.numbers a path = .ok t → t.model.vocabSize < 2 ^ 32 - 1) ∧ Main env float args a code b) fs₀ fs)
    (path : Str) (t : Tokenizer F) (ht : fromFile env.numbers fs path = .ok t)
    (norm : UnicodeForm → Str → Str) (s : Str) (dropout : F) (rnd : Nat → F) :
    ∃ ids, t.encodeOrdinary norm s dropout rnd = .ok ids ∧
      ∀ flag, t.decode ids flag = .ok (t.processors.foldl (fun s p => p.preprocess norm s) s) := by
  have lift : Relation.ReflTransGen (Event env) fs₀ fs := by
    clear ht
    induction h with
    | refl => exact .refl
    | @tail before after _ h2 ih =>
      refine ih.trans ?_
      obtain ⟨args, code, hforce, hsize, hmain⟩ := h2
      rcases C84_main env float args _ _ code hmain with ⟨_, rfl, _⟩ | ⟨sub, items, line, hr, ha, h3⟩
      · exact .refl
      · rcases h3 with ⟨_, _, rfl⟩ | ⟨_, _, rfl⟩ | ⟨cmd, out, rfl, _, _, h4⟩
        · exact .refl
        · exact .refl
        · have safe : Safe env before cmd := by
            cases ha with
            | filter _ a honly _ _ _ _ hf =>
              rcases hf with ⟨_, hf⟩ | ⟨v, hv, _⟩
              · exact hf
              · exfalso
                have : v ∈ given items ["--force"] := by rw [hv]; simp
                obtain ⟨p, hp, hp2⟩ := List.mem_filterMap.1 this
                have hp1 : p.1 = "--force".toList := by
                  by_contra hc
                  rw [if_neg (by simpa using hc)] at hp2
                  cases hp2
                have hw : p.1 ∈ Spec.written items := List.mem_flatMap.2 ⟨p, hp, by simp⟩
                refine hforce ?_
                rw [← hp1]
                rcases hr with rfl | rfl | ⟨rfl, _⟩
                · exact List.mem_cons_of_mem _ hw
                · exact List.mem_append_left _ (List.mem_cons_of_mem _ hw)
                · cases hp
            | prune _ a => exact fun t ht => by have := hsize _ t ht; omega
            | _ => trivial
          rcases h4 with ⟨_, h4⟩ | ⟨_, h4⟩
          · exact .single (.runs cmd safe h4)
          · exact .single (.stops cmd safe h4)
  exact (C73_history env laws fs₀ fs hstart lift path t ht norm s dropout rnd).1

/-- The command for filtering in README.md. -/
example (float : Str → Option F) (x : F) (h : float "-13.0".toList = some x) :
    parseArgs float ["filter".toList, "--input".toList, "hub/vocab/v2/exact-32k-pruned.json".toList, "--output".toList,
      "hub/vocab/v2/exact-30k-filtered.json".toList, "--vocab-size".toList, "30000".toList, "--min-score".toList, "-13.0".toList] =
    .ok (.run (.filter ⟨"hub/vocab/v2/exact-32k-pruned.json".toList, "hub/vocab/v2/exact-30k-filtered.json".toList, 30000,
      some x, false⟩)) := by
  refine (C84_reads float _ _).2 ⟨"filter", [("--input".toList, "hub/vocab/v2/exact-32k-pruned.json".toList),
    ("--output".toList, "hub/vocab/v2/exact-30k-filtered.json".toList), ("--vocab-size".toList, "30000".toList),
    ("--min-score".toList, "-13.0".toList)], .inl rfl, .filter _ _ ?_ ?_ ?_ ?_ ?_ ?_⟩
  · unfold Only; decide
  · exact ⟨_, rfl, rfl⟩
  · exact ⟨_, rfl, rfl⟩
  · exact .inr ⟨"30000".toList, by decide, (parseUsize_iff _ _).1 rfl⟩
  · exact .inr ⟨x, rfl, _, by decide, h⟩
  · exact .inl ⟨by decide, rfl⟩

/-- The command for mining in docs/RECIPES.md, with two sources. -/
example (float : Str → Option F) :
    parseArgs float ["mine".toList, "--output".toList, "hub/tokens/whitespace.json".toList, "--num-idioms".toList, "100".toList,
      "--pattern".toList, "[ ]{1,32}".toList, "--train".toList, "xml:./hub/data/train/xml.bin:0.25".toList, "--train".toList,
      "c:./hub/data/train/c.bin:0.25".toList] =
    .ok (.run (.mine ⟨100, "hub/tokens/whitespace.json".toList,
      ["xml:./hub/data/train/xml.bin:0.25".toList, "c:./hub/data/train/c.bin:0.25".toList], ["[ ]{1,32}".toList]⟩)) := rfl

/-- The command for the list of patterns in README.md. -/
example (float : Str → Option F) : parseArgs float ["regex".toList] = .ok .printPatterns := rfl

/-- Refused: a flag that is given twice, a missing flag, a flag without value, a flag of another command, a number that is none,
a stray argument, no command. -/
example (float : Str → Option F) :
    parseArgs float ["mine".toList, "-n".toList, "1".toList, "--num-idioms".toList, "1".toList, "-o".toList, "f".toList] =
      .error .usage ∧
    parseArgs float ["mine".toList, "-n".toList, "1".toList] = .error .usage ∧
    parseArgs float ["mine".toList, "-n".toList, "1".toList, "-o".toList] = .error .usage ∧
    parseArgs float ["mine".toList, "-n".toList, "1".toList, "-i".toList, "f".toList] = .error .usage ∧
    parseArgs float ["mine".toList, "-n".toList, "-1".toList, "-o".toList, "f".toList] = .error .usage ∧
    parseArgs float ["mine".toList, "-n".toList, "1".toList, "f".toList, "-o".toList, "f".toList] = .error .usage ∧
    parseArgs float [] = .error .usage := ⟨rfl, rfl, rfl, rfl, rfl, rfl, rfl⟩

end Tokengeex

import Verif.Model.Basic
/-
Running loops in the `Except` monad.
-/
namespace Tokengeex

@[simp] theorem res_pure {α : Type} (a : α) : (pure a : Res α) = .ok a := rfl
@[simp] theorem res_bind_ok {α β : Type} (a : α) (f : α → Res β) : ((Except.ok a : Res α) >>= f) = f a := rfl
@[simp] theorem res_bind_error {α β : Type} (e : Err) (f : α → Res β) :
    ((Except.error e : Res α) >>= f) = .error e := rfl

theorem idx_eq_ok {α : Type} {l : List α} {i : Nat} {a : α} : idx l i = .ok a ↔ l[i]? = some a := by
  unfold idx; cases h : l[i]? <;> simp

theorem idx_of_lt {α : Type} {l : List α} {i : Nat} (h : i < l.length) : idx l i = .ok l[i] := by
  rw [idx_eq_ok]; simp [h]

theorem idx_of_getElem? {α : Type} {l : List α} {i : Nat} {a : α} (h : l[i]? = some a) : idx l i = .ok a :=
  idx_eq_ok.2 h

/-- A monadic loop that never fails is a pure loop. -/
theorem foldlM_ok {α σ τ : Type} (f : σ → α → Res σ) (g : τ → α → τ) (R : σ → τ → Prop) (l : List α)
    (h : ∀ s t a, a ∈ l → R s t → ∃ s', f s a = .ok s' ∧ R s' (g t a)) :
    ∀ s t, R s t → ∃ s', l.foldlM f s = .ok s' ∧ R s' (l.foldl g t) := by
  induction l with
  | nil => intro s t hr; exact ⟨s, rfl, hr⟩
  | cons a l ih =>
    intro s t hr
    obtain ⟨s', h1, h2⟩ := h s t a (by simp) hr
    obtain ⟨s'', h3, h4⟩ := ih (fun s t b hb => h s t b (by simp [hb])) s' (g t a) h2
    refine ⟨s'', ?_, h4⟩
    rw [List.foldlM_cons, h1]
    exact h3

end Tokengeex

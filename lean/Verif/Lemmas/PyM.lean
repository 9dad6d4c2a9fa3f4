import Verif.Model.Py

/-! Simplification of exception plumbing. -/
namespace Ssq

@[simp] theorem ok_bind {α β : Type} (a : α) (f : α → Py β) : ((.ok a : Py α) >>= f) = f a := rfl
@[simp] theorem error_bind {α β : Type} (e : PyErr) (f : α → Py β) :
    ((.error e : Py α) >>= f) = .error e := rfl
@[simp] theorem pure_eq_ok {α : Type} (a : α) : (pure a : Py α) = .ok a := rfl
@[simp] theorem throw_eq_error {α : Type} (e : PyErr) : (throw e : Py α) = .error e := rfl

theorem bind_eq_ok {α β : Type} (x : Py α) (f : α → Py β) (b : β) :
    (x >>= f) = .ok b ↔ ∃ a, x = .ok a ∧ f a = .ok b := by
  cases x <;> simp

theorem bind_ok {α β : Type} {x : Py α} {f : α → Py β} {b : β} (h : (x >>= f) = .ok b) :
    ∃ a, x = .ok a ∧ f a = .ok b := (bind_eq_ok x f b).mp h

end Ssq

import Verif.Model.Basic
/-!
# Equational lemmas for the `M` monad
-/

namespace Lib842
namespace M
variable {σ α β : Type}

theorem bind_def (x : M σ α) (f : α → M σ β) (s : σ) :
    (x >>= f) s = match x s with
      | .ok a s' => f a s'
      | .err e s' => .err e s'
      | .ub => .ub
      | .timeout => .timeout := rfl

theorem bind_ok {x : M σ α} {f : α → M σ β} {s : σ} {a s'} (h : x s = .ok a s') :
    (x >>= f) s = f a s' := by rw [bind_def, h]

theorem bind_err {x : M σ α} {f : α → M σ β} {s : σ} {e s'} (h : x s = .err e s') :
    (x >>= f) s = .err e s' := by rw [bind_def, h]

@[simp] theorem pure_apply (a : α) (s : σ) : (Pure.pure a : M σ α) s = .ok a s := rfl
@[simp] theorem fail_apply (e) (s : σ) : (M.fail e : M σ α) s = .err e s := rfl
@[simp] theorem get_apply (s : σ) : (M.get : M σ σ) s = .ok s s := rfl
@[simp] theorem modify_apply (f : σ → σ) (s : σ) : M.modify f s = .ok () (f s) := rfl

@[simp] theorem pure_bind_apply (a : α) (f : α → M σ β) (s : σ) :
    ((Pure.pure a : M σ α) >>= f) s = f a s := rfl
@[simp] theorem get_bind_apply (f : σ → M σ β) (s : σ) : (M.get >>= f) s = f s s := rfl
@[simp] theorem modify_bind_apply (g : σ → σ) (f : Unit → M σ β) (s : σ) :
    (M.modify g >>= f) s = f () (g s) := rfl
@[simp] theorem fail_bind_apply (e) (f : α → M σ β) (s : σ) :
    ((M.fail e : M σ α) >>= f) s = .err e s := rfl

theorem access_bind_some {g : σ → Option α} {f : α → M σ β} {s : σ} {a} (h : g s = some a) :
    (M.access g >>= f) s = f a s := by
  rw [bind_def]; simp [M.access, h]

theorem update_bind_some {g : σ → Option σ} {f : Unit → M σ β} {s s' : σ} (h : g s = some s') :
    (M.update g >>= f) s = f () s' := by
  rw [bind_def]; simp [M.update, h]

theorem update_some {g : σ → Option σ} {s s' : σ} (h : g s = some s') :
    M.update g s = .ok () s' := by
  simp [M.update, h]

theorem bind_assoc' {γ} (x : M σ α) (f : α → M σ β) (g : β → M σ γ) :
    (x >>= f) >>= g = x >>= fun a => f a >>= g := by
  funext s
  simp only [bind_def]
  cases x s <;> rfl

end M
end Lib842

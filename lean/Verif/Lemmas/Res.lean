import Verif.Model.Outcome

/-! # Rewriting rules for sequencing results -/
namespace Jdftx

theorem Res.bind_ok {α β : Type} (a : α) (f : α → Res β) : ((Except.ok a : Res α) >>= f) = f a := rfl
theorem Res.bind_error {α β : Type} (e : Err) (f : α → Res β) : ((Except.error e : Res α) >>= f) = .error e := rfl
theorem Res.pure_eq {α : Type} (a : α) : (pure a : Res α) = .ok a := rfl

end Jdftx

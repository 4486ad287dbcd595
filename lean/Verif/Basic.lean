/-!
# Outcomes

Shared outcome type of all models.  Undefined behaviour is a distinct outcome
(`Err.ub`), never silently given a value; a thrown C++ exception is `Err.exn`;
a loop that never ends is `Err.diverge` (used only where the model detects it).
-/
namespace Cista

/-- How an operation can fail. -/
inductive Err where
  /-- undefined behaviour (out of bounds, use after free, uninitialised read, …) -/
  | ub
  /-- a C++ exception (`verify` failing, `throw_exception`, …); include/cista/verify.h:11-15 -/
  | exn
  /-- an object with a non-trivial destructor is overwritten or its storage released without running
  the destructor (only reported by models that track object lifetimes in strict mode) -/
  | leak
  /-- a loop that does not terminate -/
  | diverge
  deriving DecidableEq, Repr

/-- Result of a modelled operation. -/
abbrev Res (α : Type _) := Except Err α

deriving instance DecidableEq for Except

/-- include/cista/verify.h:11-15 `verify`: throw unless the condition holds. -/
def verify (c : Bool) : Res Unit := if c then .ok () else .error .exn

/-- Precondition whose violation is undefined behaviour in the C++ code. -/
def require (c : Bool) : Res Unit := if c then .ok () else .error .ub

/-- The operation completed normally with the given result. -/
def Res.isOk {α : Type _} : Res α → Bool
  | .ok _ => true
  | .error _ => false

@[simp] theorem verify_true : verify true = .ok () := rfl
@[simp] theorem verify_false : verify false = .error .exn := rfl
@[simp] theorem require_true : require true = .ok () := rfl
@[simp] theorem require_false : require false = .error .ub := rfl

/-- Sequencing after a normal result (used instead of unfolding `bind`). -/
theorem ok_bind {α β : Type _} (a : α) (f : α → Res β) : ((Except.ok a : Res α) >>= f) = f a := rfl
theorem error_bind {α β : Type _} (e : Err) (f : α → Res β) : ((Except.error e : Res α) >>= f) = .error e := rfl
theorem pure_ok {α : Type _} (a : α) : (pure a : Res α) = .ok a := rfl

end Cista

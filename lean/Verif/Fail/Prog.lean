import Verif.Basic

/-! # Programs that react to failures -/
namespace Cista.Fail

/-- A program using a container: it calls `op` while the allocations fail as `f` says, and continues
depending on whether the call threw `std::bad_alloc`. -/
inductive Prog (Op F : Type) where
  | done
  | step (op : Op) (f : F) (next : Bool → Prog Op F)

/-- A fixed list of calls. -/
def Prog.ofList {Op F : Type} : List (Op × F) → Prog Op F
  | [] => .done
  | (op, f) :: ops => .step op f fun _ => Prog.ofList ops

end Cista.Fail

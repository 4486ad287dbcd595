import Verif.TypeHash.Props

/-!
# Equal type hashes in the deep check

`deep_check_context::add_checked` (serialization.h:659-662) remembers visited pointers by type hash and address.

```
struct x { offset_ptr<vector<int8_t>> p; };                       // 32 bit sizes
struct z { offset_ptr<basic_vector<int8_t, offset_ptr, false, uint64_t>> p; };  // 64 bit sizes
struct root { offset_ptr<x> a; offset_ptr<z> b; };
```
-/

namespace Cista.TypeHash

open Cista.Hash (HashT)
open Cista.Ser

/-- The structs `x` and `z`; the names of the two pointer types are different. -/
def clashEnv : Env where
  base := fun n => if n = 0 then 21#64 else 22#64
  arity := fun _ => 1
  field := fun n _ => .ptr (if n = 0 then 23#64 else 24#64) (.wrap .vector i8)

/-- Hashes of the pointer types `x*`, `z*` and of the pointers to the vectors. -/
def clashKey (n : Nat) : HashT :=
  match typeHash .dynamic clashEnv 3 (if n = 0 then .ptr 25#64 (.named 0) else if n = 1 then .ptr 26#64 (.named 1)
    else if n = 2 then .ptr 23#64 (.wrap .vector i8) else .ptr 24#64 (.wrap .vector i8)) with
  | .ok h => h
  | .error _ => 0#64

def clashTys (n : Nat) : Ty :=
  if n = 0 then .agg 8 8 1 (fun _ => 0) (fun _ => .ptr (.obj 2))
  else if n = 1 then .agg 8 8 1 (fun _ => 0) (fun _ => .ptr (.obj 3))
  else if n = 2 then .vec 4 false (.int 1)
  else .vec 8 false (.int 1)

abbrev clashCfg : Cfg := ⟨.little, false, false, clashTys, 1000, clashKey⟩

abbrev clashRoot : Ty := .agg 16 8 2 (fun i => 8 * i.1) (fun i => .ptr (.obj i.1))

/-- `a` and `b` point to the same pointer at 16, that one to a vector at 24 with one element at 56. -/
def clashBytes : List Byte :=
  encI .little 16 ++ encI .little 8 ++ encI .little 8 ++ (encI .little 32 ++ leBytes 4 1 ++ leBytes 4 1 ++ leBytes 8 0 ++ leBytes 8 0) ++ leBytes 8 7

def clashMem : Mem := segs [(4096, clashBytes)]

attribute [irreducible] clashMem

theorem clash_root : clashRoot.WF := by
  refine ⟨by decide, by decide, by decide, fun i => ?_, by decide⟩
  match i with
  | 0 => exact ⟨trivial, by decide, by decide, by decide⟩
  | 1 => exact ⟨trivial, by decide, by decide, by decide⟩

/-- Pointers to `x` and to its vector have different keys. -/
example (m : Arith.Mode) : Keyed (Cfg.env { clashCfg with key := fun n => clashKey (2 * n) } m 4096 64)
    (fun n => if n = 0 then .agg 8 8 1 (fun _ => 0) (fun _ => .ptr (.obj 1)) else .vec 4 false (.int 1)) 2 := by
  have h02 : clashKey 0 ≠ clashKey 2 := by decide +kernel
  intro n k hn hk h
  have h' : clashKey (2 * n) = clashKey (2 * k) := h
  rcases (by omega : n = 0 ∨ n = 1) with rfl | rfl <;> rcases (by omega : k = 0 ∨ k = 1) with rfl | rfl
  · rfl
  · exact absurd h' h02
  · exact absurd h'.symm h02
  · rfl

/-- C39 is violated: the vectors with 32 and 64 bit sizes have the same type hash, so that the pointer at 16 is followed only once, as a
pointer to a vector with 32 bit sizes.  `DEEP_CHECK` accepts the data; through `b` a vector of 2³² + 1 elements is reachable in a buffer of
64 bytes. -/
theorem C39_type_hash_violated :
    clashRoot.WF ∧ (∀ n, n < 4 → (clashTys n).Below 4) ∧ clashKey 2 = clashKey 3 ∧
    (match deserialize clashCfg Arith.Mode.DEEP_CHECK 0 0 clashRoot 4096 64 clashMem with
      | .error _ => false | .ok (m, r) => decide (r = 4096 ∧ rd m 4096 64 = rd clashMem 4096 64)) = true ∧
    Reach (clashCfg.env Arith.Mode.DEEP_CHECK 4096 64) clashMem clashTys clashRoot 4096 3 4120 ∧
    rdN .little clashMem (4120 + 8) 8 = 2 ^ 32 + 1 ∧
    ¬ Safe (clashCfg.env Arith.Mode.DEEP_CHECK 4096 64) clashMem (clashTys 3) 4120 := by
  have hp1 : ptrAt .little false clashMem 4104 = some 4112 := by decide +kernel
  have hp2 : ptrAt .little false clashMem 4112 = some 4120 := by decide +kernel
  have hp3 : ptrAt .little false clashMem 4120 = some 4152 := by decide +kernel
  have hn : rdN .little clashMem (4120 + 8) 8 = 2 ^ 32 + 1 := by decide +kernel
  have hn' : rdN .little clashMem (4120 + 8 + 8) 8 = 0 := by decide +kernel
  refine ⟨clash_root, fun n hn => ?_, by decide +kernel, by decide +kernel, ?_, hn, fun h => ?_⟩
  · rcases (by omega : n = 0 ∨ n = 1 ∨ n = 2 ∨ n = 3) with rfl | rfl | rfl | rfl
    · exact fun _ => (by decide : 2 < 4)
    · exact fun _ => (by decide : 3 < 4)
    · trivial
    · trivial
  · refine Reach.step (n := 1) (x := 4112) (Reach.start ⟨4104, ⟨1, rfl, rfl⟩, hp1⟩) ⟨4112, ⟨0, rfl, rfl⟩, hp2⟩
  · have h3 : rdN .little clashMem (4120 + 8 + 8) 8 = rdN .little clashMem (4120 + 8) 8 := h.2.2.1
    rw [hn, hn'] at h3
    omega

end Cista.TypeHash

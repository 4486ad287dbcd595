import Verif.Ser.Rec
import Verif.Ser.Violated

/-!
# A tree

`struct node { int32 value_; ptr<node> next_; indexed_vector<node> children_; }`: a root with two children, the second of which has a
child; pointers from the first child to the second one, and from the grandchild to the first child.  Recursion without an end.
-/
set_option linter.unusedSimpArgs false
set_option linter.unusedSectionVars false

namespace Cista.Ser

open Cista.Arith (Mode)
open Cista.Hash (HashT dataStart)

def treeOff : Fin 3 → Nat
  | 0 => 0
  | 1 => 8
  | 2 => 16

def treeTy : Fin 3 → RTy
  | 0 => .ty (.int 4)
  | 1 => .ty (.ptr (.obj 0))
  | 2 => .vec 4 true (.name 0)

/-- `node`. -/
def treeDefs : Defs := ⟨fun _ => .agg 40 8 3 treeOff treeTy, fun _ => 40, fun _ => 8⟩

/-- The root at 64, its children at 128, the grandchild at 256. -/
def treeMem : Mem := segs
  [(64, leBytes 4 1), (72, encI .little NULLO), (80, encI .little 48), (88, leBytes 4 2), (92, leBytes 4 2),
   (128, leBytes 4 2), (136, encI .little 32), (144, encI .little NULLO),
   (168, leBytes 4 3), (176, encI .little NULLO), (184, encI .little 72), (192, leBytes 4 1), (196, leBytes 4 1),
   (256, leBytes 4 4), (264, encI .little (-136)), (272, encI .little NULLO)]

attribute [irreducible] treeMem

theorem tree_c64 : ptrAt .little false treeMem 80 = some 128 := by decide +kernel
theorem tree_n64 : rdN .little treeMem 88 4 = 2 := by decide +kernel
theorem tree_c128 : ptrAt .little false treeMem 144 = none := by decide +kernel
theorem tree_n128 : rdN .little treeMem 152 4 = 0 := by decide +kernel
theorem tree_c168 : ptrAt .little false treeMem 184 = some 256 := by decide +kernel
theorem tree_n168 : rdN .little treeMem 192 4 = 1 := by decide +kernel
theorem tree_c256 : ptrAt .little false treeMem 272 = none := by decide +kernel
theorem tree_n256 : rdN .little treeMem 280 4 = 0 := by decide +kernel
theorem tree_p64 : ptrAt .little false treeMem 72 = none := by decide +kernel
theorem tree_p128 : ptrAt .little false treeMem 136 = some 168 := by decide +kernel
theorem tree_p168 : ptrAt .little false treeMem 176 = none := by decide +kernel
theorem tree_p256 : ptrAt .little false treeMem 264 = some 128 := by decide +kernel

theorem tree_wf : treeDefs.WF := by
  refine fun n => ⟨⟨by decide, by decide, by decide, fun i => ?_, ?_⟩, rfl, rfl⟩
  · match i with
    | 0 => exact ⟨by simp [treeTy, RTy.fill, Ty.WF], by decide, by decide, by decide⟩
    | 1 => exact ⟨trivial, by decide, by decide, by decide⟩
    | 2 => exact ⟨⟨Or.inl rfl, by simp [RTy.fill, Defs.unroll, Ty.empty, Ty.WF, treeDefs]⟩, by decide, by decide, by decide⟩
  · show ∀ i j : Fin 3, _
    decide

/-- The type of the tree. -/
abbrev node (k : Nat) : Ty := treeDefs.unroll k 0

theorem node_size (k : Nat) : (node k).sizeof = 40 := (Defs.unroll_geo tree_wf k 0).1

/-- The side of the source. -/
abbrev treeSide : Side := ⟨.little, false, treeMem⟩

theorem node_ok {e : SEnv} {k a : Nat} (h : rdN e.host e.mem (a + 24) 4 = 0 ∨ ∃ el, ptrAt e.host e.raw e.mem (a + 16) = some el ∧
    ∀ i, i < rdN e.host e.mem (a + 24) 4 → Ok e (node k) (el + i * 40)) : Ok e (node (k + 1)) a := by
  intro i
  match i with
  | 0 => trivial
  | 1 => trivial
  | 2 =>
    rcases h with h | ⟨el, h1, h2⟩
    · exact Or.inl h
    · refine Or.inr ⟨el, h1, fun i hi => ?_⟩
      have := h2 i hi
      rw [← node_size k] at this
      exact this

theorem node_objT {s : Side} {k a cnt v : Nat} {ex : Bool} {ty : Ty} (h : ObjT s (node (k + 1)) a ex v cnt ty) :
    ∃ el, s.ptr (a + 16) = some el ∧ ((ex = false ∧ v = el ∧ cnt = s.nat (a + 24) 4 ∧ ty = node k) ∨
      ∃ i, i < s.nat (a + 24) 4 ∧ ObjT s (node k) (el + i * 40) ex v cnt ty) := by
  obtain ⟨i, h⟩ := h
  match i, h with
  | 0, h => exact h.elim
  | 1, h => exact h.elim
  | 2, h =>
    obtain ⟨el, h1, ⟨_, _, h2, h3, h4, h5⟩ | ⟨i, hi, h2⟩⟩ := h
    · exact ⟨el, h1, Or.inl ⟨h2, h3, h4, h5⟩⟩
    · refine ⟨el, h1, Or.inr ⟨i, hi, ?_⟩⟩
      rw [← node_size k]
      exact h2

theorem node_ptrs {s : Side} {P : Nat → Nat → Prop} {k a : Nat} (h1 : ∀ v, s.ptr (a + 8) = some v → P 0 v)
    (h2 : ∀ el, s.ptr (a + 16) = some el → ∀ i, i < s.nat (a + 24) 4 → Ptrs s P (node k) (el + i * 40)) : Ptrs s P (node (k + 1)) a := by
  intro i
  match i with
  | 0 => trivial
  | 1 =>
    show Ptrs s P (.ptr (.obj 0)) (a + 8)
    unfold Ptrs
    cases hx : s.ptr (a + 8) with
    | none => trivial
    | some v => exact h1 v hx
  | 2 =>
    intro el hel i hi
    have := h2 el hel i hi
    rw [← node_size k] at this
    exact this

theorem tree_live (m : Mode) : Ok (srcEnv .little false m treeMem) (node 3) 64 := by
  refine node_ok (Or.inr ⟨128, tree_c64, fun i hi => ?_⟩)
  have hi : i < rdN .little treeMem 88 4 := hi
  rw [tree_n64] at hi
  match i, hi with
  | 0, _ => exact node_ok (Or.inl tree_n128)
  | 1, _ =>
    refine node_ok (Or.inr ⟨256, tree_c168, fun i hi => ?_⟩)
    have hi : i < rdN .little treeMem 192 4 := hi
    rw [tree_n168] at hi
    match i, hi with
    | 0, _ => exact node_ok (Or.inl tree_n256)

theorem tree_objT {ex : Bool} {v cnt : Nat} {ty : Ty} (h : ObjT treeSide (node 3) 64 ex v cnt ty) :
    ex = false ∧ ((v = 128 ∧ cnt = 2 ∧ ty = node 2) ∨ (v = 256 ∧ cnt = 1 ∧ ty = node 1)) := by
  obtain ⟨el, h1, h⟩ := node_objT h
  have h1 := tree_c64.symm.trans h1
  injection h1 with h1
  subst h1
  have hn : treeSide.nat (64 + 24) 4 = 2 := tree_n64
  rw [hn] at h
  rcases h with ⟨h2, h3, h4, h5⟩ | ⟨i, hi, h⟩
  · exact ⟨h2, Or.inl ⟨h3, h4, h5⟩⟩
  · match i, hi with
    | 0, _ =>
      obtain ⟨el, h1, _⟩ := node_objT h
      exact absurd (tree_c128.symm.trans h1) (by simp)
    | 1, _ =>
      obtain ⟨el, h1, h⟩ := node_objT h
      have h1 := tree_c168.symm.trans h1
      injection h1 with h1
      subst h1
      have hn : treeSide.nat (128 + 1 * 40 + 24) 4 = 1 := tree_n168
      rw [hn] at h
      rcases h with ⟨h2, h3, h4, h5⟩ | ⟨i, hi, h⟩
      · exact ⟨h2, Or.inr ⟨h3, h4, h5⟩⟩
      · match i, hi with
        | 0, _ =>
          obtain ⟨el, h1, _⟩ := node_objT h
          exact absurd (tree_c256.symm.trans h1) (by simp)

theorem tree_source (m : Mode) (h1 : Mode.isEnabled m Mode.SKIP_VERSION = false) (h2 : Mode.isEnabled m Mode.SKIP_INTEGRITY = false) :
    Source .little false m treeMem (node 3) 64 := by
  refine ⟨h1, h2, Defs.unroll_wf tree_wf 3 0, ?_, tree_live m, ?_⟩
  · rw [(Defs.unroll_geo tree_wf 3 0).2]
    show 8 ∣ dataStart m
    unfold dataStart Hash.integrityStart
    split <;> split <;> decide
  · intro el n al el' n' al' h h' h1 h2
    obtain ⟨cnt, ty, k1, _, k3, _⟩ := Obj.objT _ (Defs.unroll_wf tree_wf 3 0) _ h
    obtain ⟨cnt', ty', k1', _, k3', _⟩ := Obj.objT _ (Defs.unroll_wf tree_wf 3 0) _ h'
    obtain ⟨-, ⟨rfl, rfl, rfl⟩ | ⟨rfl, rfl, rfl⟩⟩ := tree_objT k1 <;> obtain ⟨-, ⟨rfl, rfl, rfl⟩ | ⟨rfl, rfl, rfl⟩⟩ := tree_objT k1' <;>
      simp only [node_size] at k3 k3' <;> omega

theorem tree_al (base : Nat) (h : 8 ∣ base) (n : Nat) : (treeDefs.unroll 1 n).Al base := by
  refine ⟨h, fun i => ?_⟩
  match i with
  | 0 => exact Nat.dvd_trans (show 4 ∣ 8 by decide) h
  | 1 => exact h
  | 2 => exact ⟨h, h, fun i => i.elim0⟩

theorem tree_hasTy {base : Nat} (h8 : 8 ∣ base) {v : Nat} (hv : v = 128 ∨ v = 168) : HasTy base treeSide (node 3) 64 (node 3) v := by
  constructor
  · intro cnt ty h
    cases (tree_objT h).1
  · intro el cnt ty h h1 h2
    obtain ⟨-, ⟨rfl, rfl, rfl⟩ | ⟨rfl, rfl, rfl⟩⟩ := tree_objT h
    · have : (v - 128) % (node 2).sizeof = 0 := by rw [node_size]; omega
      rw [this]
      exact ⟨node 2, .refl _, Defs.unroll_le tree_wf (tree_al base h8) 2 3 0 (by decide)⟩
    · omega

theorem tree_typed {base : Nat} (h8 : 8 ∣ base) (m : Mode) :
    PtrsDeep base (treeDefs.unroll 3) (srcEnv .little false m treeMem).side (node 3) 64 := by
  refine node_ptrs (s := treeSide) (fun v hv => absurd (tree_p64.symm.trans hv) (by simp)) fun el hel i hi => ?_
  have h1 := tree_c64.symm.trans hel
  injection h1 with h1
  subst h1
  have hn : treeSide.nat (64 + 24) 4 = 2 := tree_n64
  rw [hn] at hi
  match i, hi with
  | 0, _ =>
    refine node_ptrs (s := treeSide) (fun v hv => ?_) fun el hel => absurd (tree_c128.symm.trans hel) (by simp)
    have := tree_p128.symm.trans hv
    injection this with this
    exact tree_hasTy h8 (Or.inr this.symm)
  | 1, _ =>
    refine node_ptrs (s := treeSide) (fun v hv => absurd (tree_p168.symm.trans hv) (by simp)) fun el hel i hi => ?_
    have h1 := tree_c168.symm.trans hel
    injection h1 with h1
    subst h1
    have hn : treeSide.nat (128 + 1 * 40 + 24) 4 = 1 := tree_n168
    rw [hn] at hi
    match i, hi with
    | 0, _ =>
      refine node_ptrs (s := treeSide) (fun v hv => ?_) fun el hel => absurd (tree_c256.symm.trans hel) (by simp)
      have := tree_p256.symm.trans hv
      injection this with this
      exact tree_hasTy h8 (Or.inl this.symm)

/-- A reader on a big endian machine with raw pointers. -/
abbrev treeCfg : Cfg := ⟨.big, true, false, fun _ => .int 4, 1000, fun _ => 0#64⟩

theorem tree_deepCfg (len : Nat) (h : len ≤ 1000) : RDeepCfg treeDefs treeCfg demoMode len 1 := by
  refine ⟨by decide, rfl, fun n i => ?_, fun n i => ?_, by simpa using h⟩
  · match i with
    | 0 => trivial
    | 1 => trivial
    | 2 => exact ⟨by decide, fun i => i.elim0⟩
  · match i with
    | 0 => trivial
    | 1 => exact (by decide : 0 < 1)
    | 2 => exact fun i => i.elim0

theorem tree_reader (base len : Nat) (h0 : 0 < base) (h1 : base < 2 ^ 62) (h8 : 8 ∣ base) (hl : len ≤ 1000) :
    RReader treeDefs .little false demoMode treeMem 3 0 64 treeCfg base len := by
  refine ⟨h0, by omega, tree_al base h8, fun n i => ?_, tree_typed h8 _, fun _ => ⟨1, tree_deepCfg len hl⟩⟩
  match i with
  | 0 => trivial
  | 1 => trivial
  | 2 => exact ⟨Or.inl rfl, fun i => i.elim0⟩

theorem tree_len : (match serialize .little false demoMode 17#64 23#64 treeMem (node 3) 64 with
    | .ok bs => bs.length | .error _ => 0) = 176 := by decide +kernel

/-- C82 applied: the tree, loaded with the deep check at address 4096 of a machine of the other byte order and with the other kind of
pointers. -/
example : ∃ bytes, treeDefs.Serializes .little false demoMode 17#64 23#64 treeMem 0 64 bytes ∧
    ∃ mem', treeDefs.Loads treeCfg demoMode 17#64 23#64 0 4096 bytes.length (segs [(4096, bytes)]) (mem', 4112) ∧
      Same ⟨.little, false, treeMem⟩ ⟨.big, true, mem'⟩ (Follows ⟨.little, false, treeMem⟩ ⟨.big, true, mem'⟩ (node 3) 64 4112) (node 3) 64 4112 := by
  obtain ⟨bytes, h1, h2⟩ := C82_round_trip_partial (th := 17#64) (sh := 23#64) tree_wf (tree_source demoMode (by decide) (by decide)) (by decide)
  have hl := tree_len
  have h1' := h1
  obtain ⟨k, hk⟩ := h1'
  have : bytes.length = 176 := by
    cases hb : serialize .little false demoMode 17#64 23#64 treeMem (node 3) 64 with
    | error x => rw [hb] at hl; cases hl
    | ok b =>
      rw [hb] at hl
      rw [h1.unique (Defs.Serializes.of tree_wf hb)]
      exact hl
  obtain ⟨mem', h3, h4, _⟩ := h2 treeCfg 4096 (segs [(4096, bytes)])
    (tree_reader 4096 bytes.length (by decide) (by decide) (by decide) (by omega)) (rd_wr_same _ _ _)
  exact ⟨bytes, h1, mem', h3, h4⟩

/-- The same run, evaluated: the numbers of the nodes, and the two pointers. -/
example : (match serialize .little false demoMode 17#64 23#64 treeMem (node 3) 64 with
    | .error _ => []
    | .ok bytes => match deserialize { treeCfg with tys := treeDefs.unroll 3 } demoMode 17#64 23#64 (node 3) 4096 bytes.length (segs [(4096, bytes)]) with
      | .error _ => []
      | .ok (m, r) => [some r, some (rdN .big m r 4), ptrAt .big true m (r + 16), some (rdN .big m 4152 4), ptrAt .big true m 4160,
          some (rdN .big m 4192 4), ptrAt .big true m 4208, some (rdN .big m 4232 4), ptrAt .big true m 4240]) =
    [some 4112, some 1, some 4152, some 2, some 4192, some 3, some 4232, some 4, some 4152] := by decide +kernel

/-! ## Recursion without an end -/

def loopOff : Fin 1 → Nat := fun _ => 0
def loopTy : Fin 1 → RTy := fun _ => .vec 4 false (.name 0)

/-- `struct node { vector<node> children_; }` of 24 bytes. -/
def loopDefs : Defs := ⟨fun _ => .agg 24 8 1 loopOff loopTy, fun _ => 24, fun _ => 8⟩

/-- The environment, with any types of pointees. -/
abbrev loopEnvT (T : Nat → Ty) : DEnv := ({ plainCfg with tys := T } : Cfg).env 0 4096 24

theorem loop_deser (T : Nat → Ty) (k : Nat) (m' : Mem) : deser (loopEnvT T) (loopDefs.unroll k 0) 4096 loopMem ≠ .ok m' := by
  induction k generalizing m' with
  | zero =>
    have h : (match deser (loopEnvT T) (loopDefs.unroll 0 0) 4096 loopMem with | .ok _ => true | .error _ => false) = false :=
      (by decide +kernel : (match deser loopEnv (loopDefs.unroll 0 0) 4096 loopMem with | .ok _ => true | .error _ => false) = false)
    intro h'
    rw [h'] at h
    cases h
  | succ k ih =>
    intro h
    have hs : (loopDefs.unroll k 0).sizeof = 24 := by cases k <;> rfl
    have ha : (loopDefs.unroll k 0).alignof = 8 := by cases k <;> rfl
    have h1 : checkAddr (loopEnvT T) 4096 24 8 = .ok () := (by decide +kernel : checkAddr loopEnv 4096 24 8 = .ok ())
    have hp : ∀ s al a m, deserPtr (loopEnvT T) s al a m = deserPtr loopEnv s al a m := fun _ _ _ _ => rfl
    have h2 : deserPtr (loopEnvT T) 24 8 4096 loopMem = .ok loopMem := by
      rw [hp]
      have h : (match deserPtr loopEnv 24 8 4096 loopMem with | .ok _ => true | .error _ => false) = true := by decide +kernel
      cases hr : deserPtr loopEnv 24 8 4096 loopMem with
      | error e => rw [hr] at h; cases h
      | ok m => rw [deserPtr_id (d := loopEnv) (by decide) rfl hr]
    have h3 : ∀ a w, convInt (loopEnvT T) a w loopMem = .ok loopMem := fun _ _ => rfl
    have h4 : chk (loopEnvT T).unchecked (checkVec (loopEnvT T) 4 24 8 4096 loopMem) = .ok () := by
      rw [show checkVec (loopEnvT T) 4 24 8 4096 loopMem = checkVec loopEnv 4 24 8 4096 loopMem from rfl]
      exact (by decide +kernel : chk loopEnv.unchecked (checkVec loopEnv 4 24 8 4096 loopMem) = .ok ())
    have h5 : loadPtr (loopEnvT T) loopMem 4096 = .ok 4096 := (by decide +kernel : loadPtr loopEnv loopMem 4096 = .ok 4096)
    have h6 : ldN (loopEnvT T) loopMem (4096 + 8) 4 = .ok 1 := (by decide +kernel : ldN loopEnv loopMem (4096 + 8) 4 = .ok 1)
    have h7 : toAddr 4096 = .ok 4096 := by decide +kernel
    have hv : ∃ x, deser (loopEnvT T) (.vec 4 false (loopDefs.unroll k 0)) 4096 loopMem = .error x := by
      unfold deser
      rw [hs, ha, show (Ty.vec 4 false (loopDefs.unroll k 0)).sizeof = 24 from rfl, show ((4096 : Nat) : Int) = 4096 from rfl, h1, ok_bind, h2,
        ok_bind, h3, ok_bind, h3, ok_bind, h4, ok_bind, h5, ok_bind, h6, ok_bind, if_neg (by decide), h7, ok_bind]
      unfold forFrom
      rw [show 4096 + 0 * 24 = 4096 from rfl]
      cases hd : deser (loopEnvT T) (loopDefs.unroll k 0) 4096 loopMem with
      | error x => exact ⟨x, rfl⟩
      | ok m => exact absurd hd (ih m)
    obtain ⟨x, hv⟩ := hv
    rw [show loopDefs.unroll (k + 1) 0 = .agg 24 8 1 loopOff (fun _ => .vec 4 false (loopDefs.unroll k 0)) from rfl] at h
    unfold deser at h
    rw [show ((4096 : Nat) : Int) = 4096 from rfl, h1, ok_bind] at h
    unfold forFrom at h
    rw [dif_pos (by decide), show 4096 + loopOff ⟨0, by decide⟩ = 4096 from rfl, hv, error_bind] at h
    cases h

/-- C82 is violated without a limit on the levels of values that own one another: the bytes of a node which is its own child pass all
checks, and no recursion depth is enough to load them. -/
theorem C82_cyclic_violated (r : Mem × Nat) : ¬ loopDefs.Loads plainCfg 0 0 0 0 4096 24 loopMem r := by
  rintro ⟨k, h⟩
  have h := h k k (Nat.le_refl _) (Nat.le_refl _)
  unfold deserialize at h
  rw [if_neg (by decide)] at h
  have hc : Hash.check .little 0 0 0 (rd loopMem 4096 24) = .ok () := by decide +kernel
  rw [show ({ plainCfg with tys := loopDefs.unroll k } : Cfg).host = .little from rfl, hc, ok_bind, show 4096 + dataStart 0 = 4096 from rfl] at h
  cases hd : deser (loopEnvT (loopDefs.unroll k)) (loopDefs.unroll k 0) 4096 loopMem with
  | error x => rw [hd] at h; cases h
  | ok m => exact loop_deser _ _ _ hd

end Cista.Ser

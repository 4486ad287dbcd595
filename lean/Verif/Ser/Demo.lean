import Verif.Ser.Props

/-!
# A concrete value meeting the assumptions of the serialization theorems

`struct root { int32 n; indexed-pointer p; pointer q; indexed<int32> x; indexed_vector<int32> v; }` with `p` pointing at `x` (written
after the pointer) and `q` into the middle of `v`, written in big endian order with version, checksum and deep check.
-/
set_option linter.unusedSimpArgs false
set_option linter.unusedSectionVars false

namespace Cista.Ser

open Cista.Arith (Mode)
open Cista.Hash (HashT dataStart)

/-- Memory with the given bytes at the given addresses. -/
def segs : List (Nat × List Byte) → Mem
  | [] => fun _ => 0#8
  | (a, bs) :: l => wr (segs l) a bs

def demoOff : Fin 5 → Nat
  | 0 => 0
  | 1 => 8
  | 2 => 16
  | 3 => 24
  | 4 => 32

def demoTy : Fin 5 → Ty
  | 0 => .int 4
  | 1 => .ptr (.obj 0)
  | 2 => .ptr (.obj 0)
  | 3 => .idx (.int 4)
  | 4 => .vec 4 true (.int 4)

/-- The type of the demonstration. -/
abbrev demoRoot : Ty := .agg 56 8 5 demoOff demoTy

/-- The value at address 64, the elements of the vector at 128. -/
def demoMem : Mem := segs
  [(64, leBytes 4 7), (72, encI .little 16), (80, encI .little 52), (88, leBytes 4 5), (96, encI .little 32),
   (104, leBytes 4 3), (108, leBytes 4 4), (112, leBytes 4 1), (128, leBytes 4 1 ++ leBytes 4 2 ++ leBytes 4 3 ++ leBytes 4 9)]

attribute [irreducible] demoMem

/-- Big endian, version, checksum, deep check. -/
abbrev demoMode : Mode := Mode.SERIALIZE_BIG_ENDIAN ||| Mode.WITH_VERSION ||| Mode.WITH_INTEGRITY ||| Mode.DEEP_CHECK

/-- A reader on a big endian machine with raw pointers. -/
abbrev demoCfg : Cfg := ⟨.big, true, false, fun _ => .int 4, 1000, fun _ => 0#64⟩

theorem demo_p : ptrAt .little false demoMem 72 = some 88 := by decide +kernel
theorem demo_q : ptrAt .little false demoMem 80 = some 132 := by decide +kernel
theorem demo_v : ptrAt .little false demoMem 96 = some 128 := by decide +kernel
theorem demo_n : rdN .little demoMem 104 4 = 3 := by decide +kernel

theorem demo_wf : demoRoot.WF := by
  refine ⟨by decide, by decide, by decide, fun i => ?_, ?_⟩
  · match i with
    | 0 => exact ⟨by simp [demoTy, Ty.WF], by decide, by decide, by decide⟩
    | 1 => exact ⟨trivial, by decide, by decide, by decide⟩
    | 2 => exact ⟨trivial, by decide, by decide, by decide⟩
    | 3 => exact ⟨by simp [demoTy, Ty.WF], by decide, by decide, by decide⟩
    | 4 => exact ⟨by simp [demoTy, Ty.WF], by decide, by decide, by decide⟩
  · intro i j h
    revert i j
    decide

theorem demo_live (m : Mode) : Ok (srcEnv .little false m demoMem) demoRoot 64 := by
  intro i
  match i with
  | 0 => trivial
  | 1 => trivial
  | 2 => trivial
  | 3 => trivial
  | 4 => exact Or.inr ⟨128, demo_v, fun _ _ => trivial⟩

theorem demo_obj {el n al : Nat} (h : Obj ⟨.little, false, demoMem⟩ demoRoot 64 false el n al) : el = 128 ∧ n = 12 := by
  obtain ⟨i, h⟩ := h
  match i, h with
  | 0, h => exact h.elim
  | 1, h => exact h.elim
  | 2, h => exact h.elim
  | 3, h =>
    rcases h with ⟨h, _⟩ | h
    · cases h
    · exact h.elim
  | 4, h =>
    obtain ⟨e, h1, ⟨_, _, _, rfl, h2, _⟩ | ⟨_, _, h⟩⟩ := h
    · have := demo_v.symm.trans h1
      injection this with this
      have h3 : n = rdN .little demoMem 104 4 * 4 := h2
      rw [demo_n] at h3
      exact ⟨this.symm, h3⟩
    · exact h.elim

theorem demo_source (m : Mode) (h1 : Mode.isEnabled m Mode.SKIP_VERSION = false) (h2 : Mode.isEnabled m Mode.SKIP_INTEGRITY = false) :
    Source .little false m demoMem demoRoot 64 := by
  refine ⟨h1, h2, demo_wf, ?_, demo_live m, ?_⟩
  · show 8 ∣ dataStart m
    unfold dataStart Hash.integrityStart
    split <;> split <;> decide
  · intro el n al el' n' al' h h' _ _
    obtain ⟨rfl, rfl⟩ := demo_obj h
    obtain ⟨rfl, rfl⟩ := demo_obj h'
    exact ⟨rfl, rfl⟩

theorem demo_hasTy (M v : Nat) (hv : v = 88 ∨ (128 ≤ v ∧ v % 4 = 0)) : HasTy M ⟨.little, false, demoMem⟩ demoRoot 64 (.int 4) v := by
  constructor
  · rintro cnt ty ⟨i, h⟩
    match i, h with
    | 0, h => exact h.elim
    | 1, h => exact h.elim
    | 2, h => exact h.elim
    | 3, h =>
      rcases h with ⟨_, _, _, rfl⟩ | h
      · exact (Sub.refl _).toLe
      · exact h.elim
    | 4, h =>
      obtain ⟨e, h1, ⟨_, _, h, _⟩ | ⟨_, _, h⟩⟩ := h
      · cases h
      · exact h.elim
  · rintro el cnt ty ⟨i, h⟩ h1 h2
    match i, h with
    | 0, h => exact h.elim
    | 1, h => exact h.elim
    | 2, h => exact h.elim
    | 3, h =>
      rcases h with ⟨h, _⟩ | h
      · cases h
      · exact h.elim
    | 4, h =>
      obtain ⟨e, h3, ⟨_, _, _, rfl, _, rfl⟩ | ⟨_, _, h⟩⟩ := h
      · have := demo_v.symm.trans h3
        injection this with this
        subst this
        have : (v - 128) % (Ty.int 4).sizeof = 0 := by simp only [Ty.sizeof]; omega
        rw [this]
        exact (Sub.refl _).toLe
      · exact h.elim

theorem Ptrs.of_some {s : Side} {P : Nat → Nat → Prop} {n a v : Nat} (h : s.ptr a = some v) (hp : P n v) : Ptrs s P (.ptr (.obj n)) a := by
  unfold Ptrs
  rw [h]
  exact hp

theorem demo_typed (M : Nat) (m : Mode) : PtrsDeep M (fun _ => .int 4) (srcEnv .little false m demoMem).side demoRoot 64 := by
  intro i
  match i with
  | 0 => trivial
  | 1 => exact Ptrs.of_some (s := ⟨.little, false, demoMem⟩) (P := fun _ v => HasTy M ⟨.little, false, demoMem⟩ demoRoot 64 (.int 4) v) (n := 0) (a := 72) (v := 88) demo_p (demo_hasTy M 88 (Or.inl rfl))
  | 2 => exact Ptrs.of_some (s := ⟨.little, false, demoMem⟩) (P := fun _ v => HasTy M ⟨.little, false, demoMem⟩ demoRoot 64 (.int 4) v) (n := 0) (a := 80) (v := 132) demo_q (demo_hasTy M 132 (Or.inr ⟨by decide, by decide⟩))
  | 3 => trivial
  | 4 => exact fun _ _ _ _ => trivial

/-- Length of the result: headers, root, elements. -/
theorem demo_len : (match serialize .little false demoMode 17#64 23#64 demoMem demoRoot 64 with
    | .ok bs => bs.length | .error _ => 0) = 84 := by decide +kernel

theorem demo_deepCfg (len : Nat) (h : len ≤ 1000) : DeepCfg demoCfg demoMode demoRoot len 1 := by
  refine ⟨by decide, rfl, fun i => ?_, fun i => ?_, fun n _ => ⟨by simp [Ty.WF], trivial, trivial⟩, fun _ => (by decide : 0 < 4), by simpa using h⟩
  · match i with
    | 0 => trivial
    | 1 => trivial
    | 2 => trivial
    | 3 => trivial
    | 4 => exact ⟨by decide, trivial⟩
  · match i with
    | 0 => trivial
    | 1 => exact (by decide : 0 < 1)
    | 2 => exact (by decide : 0 < 1)
    | 3 => trivial
    | 4 => trivial

theorem demo_al (base : Nat) (h : 8 ∣ base) : demoRoot.Al base := by
  have h4 : 4 ∣ base := Nat.dvd_trans (by decide) h
  refine ⟨h, fun i => ?_⟩
  match i with
  | 0 => exact h4
  | 1 => exact h
  | 2 => exact h
  | 3 => exact h4
  | 4 => exact ⟨h, h4⟩

theorem demo_reader (base len : Nat) (h0 : 0 < base) (h1 : base < 2 ^ 62) (h8 : 8 ∣ base) (hl : len ≤ 1000) :
    Reader .little false demoMode demoMem demoRoot 64 demoCfg base len := by
  refine ⟨h0, by omega, demo_al base h8, fun i => ?_, demo_typed _ _, fun _ => ⟨1, demo_deepCfg len hl⟩⟩
  match i with
  | 0 => trivial
  | 1 => trivial
  | 2 => trivial
  | 3 => trivial
  | 4 => trivial

/-- C37 applied: loaded at address 4096 of a machine of the other byte order and with the other kind of pointers. -/
example : ∃ bytes, serialize .little false demoMode 17#64 23#64 demoMem demoRoot 64 = .ok bytes ∧
    ∃ mem', deserialize demoCfg demoMode 17#64 23#64 demoRoot 4096 bytes.length (segs [(4096, bytes)]) = .ok (mem', 4112) ∧
      Same ⟨.little, false, demoMem⟩ ⟨.big, true, mem'⟩ (Follows ⟨.little, false, demoMem⟩ ⟨.big, true, mem'⟩ demoRoot 64 4112) demoRoot 64 4112 := by
  obtain ⟨bytes, h1, h2⟩ := C37_round_trip_partial (th := 17#64) (sh := 23#64) (demo_source demoMode (by decide) (by decide)) (by decide)
  have hl := demo_len
  rw [h1] at hl
  obtain ⟨mem', h3, h4, _⟩ := h2 demoCfg 4096 (segs [(4096, bytes)])
    (demo_reader 4096 bytes.length (by decide) (by decide) (by decide) (by simp only at hl; omega)) (rd_wr_same _ _ _)
  exact ⟨bytes, h1, mem', h3, h4⟩

/-- The same run, evaluated: the numbers, the two pointers and the elements of the copy. -/
example : (match serialize .little false demoMode 17#64 23#64 demoMem demoRoot 64 with
    | .error _ => []
    | .ok bytes => match deserialize demoCfg demoMode 17#64 23#64 demoRoot 4096 bytes.length (segs [(4096, bytes)]) with
      | .error _ => []
      | .ok (m, r) => [some r, some (rdN .big m r 4), ptrAt .big true m (r + 8), ptrAt .big true m (r + 16), some (rdN .big m (r + 24) 4),
          ptrAt .big true m (r + 32), some (rdN .big m (r + 40) 4), some (rdN .big m 4168 4), some (rdN .big m 4172 4),
          some (rdN .big m 4176 4)]) =
    [some 4112, some 7, some 4136, some 4172, some 5, some 4168, some 3, some 1, some 2, some 3] := by decide +kernel

/-- C38 applied: `p` designates the copy of `x`. -/
example : ∃ bytes, serialize .little false demoMode 17#64 23#64 demoMem demoRoot 64 = .ok bytes ∧
    ∃ mem' root w, deserialize demoCfg demoMode 17#64 23#64 demoRoot 4096 bytes.length (segs [(4096, bytes)]) = .ok (mem', root) ∧
      ptrAt .big true mem' (root + 8) = some w ∧ rdN .big mem' w 4 = 5 := by
  obtain ⟨bytes, h1, h2⟩ := C38_relinked_partial (th := 17#64) (sh := 23#64) (demo_source demoMode (by decide) (by decide)) (by decide)
  have hl := demo_len
  rw [h1] at hl
  obtain ⟨mem', root, h3, h4⟩ := h2 demoCfg 4096 (segs [(4096, bytes)])
    (demo_reader 4096 bytes.length (by decide) (by decide) (by decide) (by simp only at hl; omega)) (rd_wr_same _ _ _)
  obtain ⟨_, _, h5⟩ := h4 (.obj 0) 72 (root + 8) (Twin.agg (i := (1 : Fin 5)) (Twin.refl ..))
  obtain ⟨w, h6, _, h7⟩ := (h5 0 88 rfl demo_p).2 (Or.inl ⟨4, 4, 3, Or.inl ⟨rfl, rfl, rfl, rfl⟩⟩)
  have h8 : rdN .big mem' w 4 = rdN .little demoMem 88 4 := h7
  exact ⟨bytes, h1, mem', root, w, h3, h6, h8.trans (by decide +kernel)⟩

/-- C37 for `CAST`. -/
example : ∃ bytes, serialize .little false Mode.CAST 0 0 demoMem demoRoot 64 = .ok bytes ∧
    deserialize ⟨.little, false, false, fun _ => .int 4, 0, fun _ => 0#64⟩ Mode.CAST 0 0 demoRoot 4096 bytes.length (segs [(4096, bytes)]) =
      .ok (segs [(4096, bytes)], 4096) := by
  obtain ⟨bytes, h1, h2⟩ := C37_cast_partial (th := 0) (sh := 0) (demo_source Mode.CAST (by decide) (by decide)) (by decide) (by decide)
  have hl : (match serialize .little false Mode.CAST 0 0 demoMem demoRoot 64 with
    | .ok bs => bs.length | .error _ => 0) = 68 := by decide +kernel
  rw [h1] at hl
  simp only at hl
  exact ⟨bytes, h1, (h2 ⟨.little, false, false, fun _ => .int 4, 0, fun _ => 0#64⟩ 4096 _ (by decide) (by omega) (demo_al 4096 (by decide)) (by decide) rfl
    (rd_wr_same _ _ _)).1⟩

theorem demo_noHash : demoRoot.NoHash := by
  intro i
  match i with
  | 0 => trivial
  | 1 => trivial
  | 2 => trivial
  | 3 => trivial
  | 4 => trivial

/-- C39 and C40 apply to every memory content. -/
example (mem : Mem) (th sh : HashT) : deserialize demoCfg demoMode th sh demoRoot 4096 84 mem ≠ .error .diverge ∧
    deserialize demoCfg demoMode th sh demoRoot 4096 84 mem ≠ .error .ub := by
  refine ⟨(C40_terminates_partial (K := 1) (by decide) (by decide) (by decide) demo_wf (demo_deepCfg 84 (by decide)) (Or.inl demo_noHash)).1, fun h => ?_⟩
  rcases C39_safe_partial (th := th) (sh := sh) (mem := mem) (K := 1) (by decide) (by decide : 0 < 4096) (by decide) demo_wf
    (demo_deepCfg 84 (by decide)) (Or.inl demo_noHash) with h1 | ⟨_, h1, _⟩ <;> rw [h1] at h <;> cases h

/-- C41 and C55: the same bytes without conversion are accepted and not changed. -/
example : (match serialize .little false Mode.DEEP_CHECK 0 0 demoMem demoRoot 64 with
    | .error _ => false
    | .ok bytes => match deserialize ⟨.little, false, false, fun _ => .int 4, 100, fun _ => 0#64⟩ Mode.DEEP_CHECK 0 0 demoRoot 4096 bytes.length
        (segs [(4096, bytes)]) with
      | .error _ => false
      | .ok (m, r) => decide (r = 4096 ∧ rd m 4096 bytes.length = bytes)) = true := by decide +kernel

end Cista.Ser

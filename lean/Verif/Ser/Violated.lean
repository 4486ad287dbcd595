import Verif.Ser.Demo
import Verif.Str.Props

/-!
# Where the code falls short of the serialization properties

Each theorem gives legal values or inputs for which the property fails: a concrete run, or all values of a kind.
-/
set_option linter.unusedSimpArgs false
set_option linter.unusedSectionVars false

namespace Cista.Ser

open Cista.Arith (Mode)
open Cista.Hash (HashT dataStart)

/-- Write the value at `a` and load the bytes at `base`. -/
def roundTrip (host : Endian) (raw : Bool) (m : Mode) (mem : Mem) (t : Ty) (a : Nat) (g : Cfg) (base : Nat) : Res (Mem × Nat) := do
  let bytes ← serialize host raw m 17#64 23#64 mem t a
  deserialize g m 17#64 23#64 t base bytes.length (segs [(base, bytes)])

/-- A little endian reader with offset pointers to 4 byte integers. -/
abbrev plainCfg : Cfg := ⟨.little, false, false, fun _ => .int 4, 1000, fun _ => 0#64⟩

/-- 16 bytes at address 64. -/
def wideMem : Mem := segs [(64, leBytes 16 0x0F0E0D0C0B0A09080706050403020100)]

/-- C37 is violated for root types with an alignment above 8 behind an 8 byte header: the writer pads the root to position 16
(serialization.h:507-509), the reader looks at position 8 (1070).  Loaded at an aligned address the data is rejected; loaded at an
address that is 8 modulo 16 wrong bytes are returned. -/
theorem C37_overaligned_root_violated :
    (Ty.blob 16 16).WF ∧ Ok (srcEnv .little false Mode.WITH_VERSION wideMem) (.blob 16 16) 64 ∧
    (match roundTrip .little false Mode.WITH_VERSION wideMem (.blob 16 16) 64 plainCfg 4096 with
      | .error e => decide (e = .exn) | .ok _ => false) = true ∧
    (match roundTrip .little false Mode.WITH_VERSION wideMem (.blob 16 16) 64 plainCfg 4104 with
      | .error _ => false | .ok (m, r) => decide (rd m r 16 ≠ rd wideMem 64 16)) = true := by
  refine ⟨⟨by decide, by decide, by decide⟩, trivial, ?_, ?_⟩ <;> decide +kernel

/-- A variant of 300 alternatives. -/
abbrev manyTy : Ty := .var 2 2 4 2 300 (fun _ => .int 1)

/-- A variant with the given index at address 64. -/
def manyMem (i : Nat) : Mem := segs [(64, leBytes 2 i ++ [42#8, 0#8])]

theorem many_wf : manyTy.WF :=
  ⟨Or.inr rfl, by decide, by decide, by decide, by decide, by decide, by decide, by decide,
    fun _ => ⟨Or.inl rfl, (by decide : 2 + 1 ≤ 4), (by decide : 1 ∣ 2), (by decide : 1 ∣ 2)⟩⟩

/-- C37 is violated for variants with a two byte index if the byte order is converted: serialization.h:1016-1019 is never called,
because its template parameter `Fn` cannot be deduced, so the index stays swapped: alternative 1 is loaded as alternative 256,
alternative 5 is rejected. -/
theorem C37_variant_index_violated :
    manyTy.WF ∧ (∀ i, i < 300 → Ok (srcEnv .little false Mode.SERIALIZE_BIG_ENDIAN (manyMem i)) manyTy 64) ∧
    (match roundTrip .little false Mode.SERIALIZE_BIG_ENDIAN (manyMem 1) manyTy 64 plainCfg 4096 with
      | .error _ => false | .ok (m, r) => decide (rdN .little (manyMem 1) 64 2 = 1 ∧ rdN .little m r 2 = 256)) = true ∧
    (match roundTrip .little false Mode.SERIALIZE_BIG_ENDIAN (manyMem 5) manyTy 64 plainCfg 4096 with
      | .error e => decide (e = .exn) | .ok _ => false) = true := by
  refine ⟨many_wf, fun i hi => ⟨⟨i, hi⟩, ?_, trivial⟩, by decide +kernel, by decide +kernel⟩
  show rdN .little (manyMem i) 64 2 = i
  unfold rdN manyMem segs
  have h1 : rd (wr (segs []) 64 (leBytes 2 i ++ [42#8, 0#8])) 64 2 = leBytes 2 i := by
    have h := rd_wr_same (segs []) 64 (leBytes 2 i ++ [42#8, 0#8])
    rw [List.length_append, length_leBytes, show ([42#8, 0#8] : List Byte).length = 2 from rfl, rd_split] at h
    exact (List.append_inj h (by simp)).1
  rw [h1]
  show ofLE (leBytes 2 i) = i
  exact ofLE_leBytes_of_lt (by omega)

/-- C37 is violated for floating point numbers (and enums): their bytes are never swapped, although the mode promises one byte order.  Whatever
the number and the mode, a machine of the other byte order reads its bytes backwards: a different number, unless they are a palindrome. -/
theorem C37_float_violated {host : Endian} {m : Mode} {th sh : HashT} {mem : Mem} {a w : Nat} (hw : w = 4 ∨ w = 8)
    (hv : Mode.isEnabled m Mode.SKIP_VERSION = false) (hi : Mode.isEnabled m Mode.SKIP_INTEGRITY = false)
    (hcast : Mode.isEnabled m Mode.CAST = false) (hdeep : Mode.isEnabled m Mode.DEEP_CHECK = false)
    (hne : (rd mem a w).reverse ≠ rd mem a w) :
    ∃ bytes, serialize host false m th sh mem (.blob w w) a = .ok bytes ∧ ∀ (g : Cfg) base mem2, g.host ≠ host → 0 < base →
      base + bytes.length < 2 ^ 63 → w ∣ base → rd mem2 base bytes.length = bytes →
      ∃ mem', deserialize g m th sh (.blob w w) base bytes.length mem2 = .ok (mem', base + dataStart m) ∧
        rdN g.host mem' (base + dataStart m) w = ofHost host (rd mem a w).reverse ∧
        rdN g.host mem' (base + dataStart m) w ≠ rdN host mem a w := by
  have h8 : 8 ∣ dataStart m := by
    unfold dataStart Hash.integrityStart
    split <;> split <;> decide
  have hs : Source host false m mem (.blob w w) a := by
    refine ⟨hv, hi, ?_, ?_, trivial, ?_⟩
    · rcases hw with rfl | rfl <;> exact ⟨by decide, by decide, by decide⟩
    · show w ∣ dataStart m
      exact Nat.dvd_trans (by rcases hw with rfl | rfl <;> decide) h8
    · intro el n al el' n' al' h
      exact h.elim
  obtain ⟨bytes, h1, h2⟩ := C37_round_trip_partial (th := th) (sh := sh) hs hcast
  refine ⟨bytes, h1, fun g base mem2 hg hb0 hb1 hal hrd => ?_⟩
  obtain ⟨mem', e, hsame, _⟩ := h2 g base mem2 ⟨hb0, hb1, hal, trivial, trivial, fun h => by rw [hdeep] at h; cases h⟩ hrd
  have hsame : rd mem' (base + dataStart m) w = rd mem a w := hsame
  have e1 : rdN g.host mem' (base + dataStart m) w = ofHost host (rd mem a w).reverse := by
    unfold rdN
    rw [hsame]
    cases hh : host <;> cases hg' : g.host <;> first | exact absurd (hg'.trans hh.symm) hg | simp [ofHost]
  refine ⟨mem', e, e1, fun h => ?_⟩
  rw [e1] at h
  have hl : (rd mem a w).length = w := length_rd ..
  cases host with
  | little =>
    have h : ofLE (rd mem a w).reverse = ofLE (rd mem a w) := h
    exact hne (by rw [← leBytes_ofLE' (l := (rd mem a w).reverse) (n := w) (by rw [List.length_reverse, hl]), h, leBytes_ofLE' hl])
  | big =>
    have h : ofLE (rd mem a w).reverse.reverse = ofLE (rd mem a w).reverse := h
    rw [List.reverse_reverse] at h
    exact hne (by rw [← leBytes_ofLE' (l := (rd mem a w).reverse) (n := w) (by rw [List.length_reverse, hl]), ← h, leBytes_ofLE' hl])

/-- The number 1.0, written on a little endian machine without header and read on a big endian one. -/
example : ∃ bytes, serialize .little false 0 17#64 23#64 (segs [(64, leBytes 8 0x3FF0000000000000)]) (.blob 8 8) 64 = .ok bytes ∧
    ∀ mem2, bytes.length = 8 → rd mem2 4096 bytes.length = bytes → ∃ mem',
      deserialize ⟨.big, false, false, fun _ => .int 4, 0, fun _ => 0#64⟩ 0 17#64 23#64 (.blob 8 8) 4096 bytes.length mem2 = .ok (mem', 4096) ∧
      rdN .big mem' 4096 8 = 0xF03F := by
  obtain ⟨bytes, h1, h2⟩ := C37_float_violated (host := .little) (m := 0) (th := 17#64) (sh := 23#64)
    (mem := segs [(64, leBytes 8 0x3FF0000000000000)]) (a := 64) (w := 8) (Or.inr rfl) (by decide) (by decide) (by decide) (by decide) (by decide +kernel)
  refine ⟨bytes, h1, fun mem2 hl hrd => ?_⟩
  obtain ⟨mem', e, e1, _⟩ := h2 ⟨.big, false, false, fun _ => .int 4, 0, fun _ => 0#64⟩ 4096 mem2 (by decide) (by decide)
    (by rw [hl]; decide) (by decide) hrd
  exact ⟨mem', e, e1.trans (by decide +kernel)⟩

/-! ## Untrusted input -/

def overlapOff : Fin 2 → Nat
  | 0 => 0
  | 1 => 8

def overlapTy : Fin 2 → Ty
  | 0 => .ptr (.obj 0)
  | 1 => .uptr (.int 8)

/-- `struct { offset_ptr<int32> p; unique_ptr<int64> u; }`. -/
abbrev overlapRoot : Ty := .agg 24 8 2 overlapOff overlapTy

/-- `p` refers to the end of the structure, `u` owns the place where `p` is stored. -/
def overlapBytes : List Byte := (encI .little 16).reverse ++ (encI .little (-8)).reverse ++ leBytes 8 0

/-- C39 is violated with byte order conversion and without `DEEP_CHECK`: `p` is converted and checked first, then `u`, whose target is
`p` itself, swaps the bytes of `p` again.  Deserialization succeeds, and `p` points out of the buffer. -/
theorem C39_overlap_violated :
    overlapRoot.WF ∧
    (match deserialize plainCfg Mode.SERIALIZE_BIG_ENDIAN 0 0 overlapRoot 4096 24 (segs [(4096, overlapBytes)]) with
      | .error _ => false
      | .ok (m, r) => match ptrAt .little false m r with
        | none => false
        | some x => decide (4096 + 24 < x)) = true := by
  refine ⟨⟨by decide, by decide, by decide, fun i => ?_, ?_⟩, by decide +kernel⟩
  · match i with
    | 0 => exact ⟨trivial, by decide, by decide, by decide⟩
    | 1 => exact ⟨by simp [overlapTy, Ty.WF], by decide, by decide, by decide⟩
  · decide

/-- C39 is violated for offset pointers close to 2⁶³: `el != nullptr` computes the address (signed overflow, undefined behaviour) before
the overflow check of serialization.h:606-607.  This is so for every buffer that starts with an offset leading past the largest address. -/
theorem C39_overflow_violated {th sh : HashT} {tys : Nat → Ty} {fuel : Nat} {key : Nat → HashT} {base len : Nat} {o : Int} {mem : Mem}
    (hal : (tys 0).alignof ≠ 0) (hb : 0 < base) (h8 : base % 8 = 0) (hlen : 8 ≤ len) (htop : base + len < 2 ^ 63)
    (hrd : rd mem base 8 = encI .little o) (ho : o < 2 ^ 63) (hov : 2 ^ 63 ≤ (base : Int) + o) :
    deserialize ⟨.little, false, true, tys, fuel, key⟩ 0 th sh (.ptr (.obj 0)) base len mem = .error .ub := by
  have hc : Hash.check .little 0 th sh (rd mem base len) = .ok () := by
    unfold Hash.check
    rw [show decide ((rd mem base len).length > dataStart 0) = true from decide_eq_true (by
      rw [length_rd, show dataStart 0 = 0 by decide]; omega), verify_true, ok_bind]
    rfl
  unfold deserialize
  rw [if_neg (by decide), hc, ok_bind, show base + dataStart 0 = base by rw [show dataStart 0 = 0 by decide]; omega]
  generalize hd : Cfg.env ⟨.little, false, true, tys, fuel, key⟩ 0 base len = d
  have d1 : d.host = .little := by rw [← hd]; rfl
  have d2 : d.conv = false := by rw [← hd]; show conversionNecessary .little 0 = false; decide
  have d3 : d.raw = false := by rw [← hd]; rfl
  have d4 : d.unchecked = false := by rw [← hd]; show Mode.isEnabled 0 Mode.UNCHECKED = false; decide
  have d5 : d.strict = true := by rw [← hd]; rfl
  have d6 : d.lo = base := by rw [← hd]; rfl
  have d7 : d.hi = base + len := by rw [← hd]; rfl
  have d8 : (d.obj 0).2 = (tys 0).alignof := by rw [← hd]; rfl
  have hp : loadPtr d mem base = .error .ub := by
    unfold loadPtr
    have hdec : decI .little (encI .little o) = o := decI_encI ⟨by omega, ho⟩
    rw [show ld d mem base 8 8 = .ok (rd mem base 8) from if_pos ⟨by omega, by omega, h8⟩, ok_bind, d1, d3, d5, hrd, hdec,
      if_neg (by decide), if_neg (by unfold NULLO; omega), if_neg (by omega), if_pos rfl]
  have ha : checkAddr d (base : Int) 8 8 = .ok () := by
    unfold checkAddr
    rw [d4, if_neg (by decide), if_neg (by omega), d6, d7, decide_eq_true (Int.le_refl _), verify_true, ok_bind,
      toS64_of_lt (by omega), add64 (by omega) (by omega), if_pos (by omega), ok_bind,
      show decide ((base : Int) + (8 : Nat) ≤ (base + len : Nat)) = true from decide_eq_true (by omega), verify_true, ok_bind,
      show decide (8 < 2 ^ 63 - 1) = true by decide, verify_true, ok_bind,
      show decide (8 = 0 ∨ (base : Int) % (8 : Nat) = 0) = true from decide_eq_true (by omega)]
    rfl
  unfold deser deserPtr convPtr convInt checkPtrAt
  rw [ha, ok_bind, d3, d2, d4, if_neg (by decide), if_neg (by decide), ok_bind, if_neg (by simp), if_neg (by decide),
    if_neg (show ¬(pointee d (.obj 0)).2 = 0 by show ¬(d.obj 0).2 = 0; rw [d8]; exact hal), hp, error_bind, error_bind, error_bind]

example : deserialize ⟨.little, false, true, fun _ => .int 4, 0, fun _ => 0#64⟩ 0 0 0 (.ptr (.obj 0)) 4096 8
    (segs [(4096, encI .little (2 ^ 63 - 1))]) = .error .ub :=
  C39_overflow_violated (o := 2 ^ 63 - 1) (by decide) (by decide) (by decide) (by decide) (by decide) (by decide +kernel) (by decide) (by decide)

/-- A `hash_set<unique_ptr<int16>>` of three slots with one entry, which owns the third and fourth control byte. -/
def overwriteBytes : List Byte :=
  (encI .little 48).reverse ++ (encI .little 88).reverse ++ (leBytes 8 1).reverse ++ (leBytes 8 3).reverse ++ (leBytes 8 2).reverse ++ leBytes 8 0 ++
  (encI .little 50).reverse ++ leBytes 8 0 ++ leBytes 16 0 ++ (encI .little NULLO).reverse ++ leBytes 8 0 ++
  [0#8, 128#8, 128#8, 255#8, 128#8, 128#8, 128#8, 128#8, 128#8, 128#8, 128#8, 128#8]

/-- C39 is violated for hash tables with byte order conversion, also with `DEEP_CHECK`: the control bytes are checked
(serialization.h:926-989), then the iteration (991-999) converts the entries; an entry that owns the control bytes swaps the end marker away,
and the iterator (hash_storage.h:180-186) runs out of the buffer. -/
theorem C39_hash_overwrite_violated :
    (Ty.hash (.uptr (.int 2))).WF ∧
    (match deserialize plainCfg (Mode.SERIALIZE_BIG_ENDIAN ||| Mode.DEEP_CHECK) 0 0 (.hash (.uptr (.int 2))) 4096 overwriteBytes.length
        (segs [(4096, overwriteBytes)]) with
      | .error e => decide (e = .ub) | .ok _ => false) = true := by
  refine ⟨by simp [Ty.WF], by decide +kernel⟩

/-! ## Termination -/

/-- serialization.h:736-746, 785-815 for `struct node { vector<node> children_; }` (24 bytes), written out with a
bound on the recursion depth; for recursive types in general see `Rec.lean`. -/
def deserNode (d : DEnv) : (fuel : Nat) → (a : Nat) → Mem → Res Mem
  | 0, _, _ => .error .diverge
  | f + 1, a, m => do
    checkAddr d a 24 8
    checkAddr d a 24 8
    let m ← deserPtr d 24 8 a m
    let m ← convInt d (a + 12) 4 m
    let m ← convInt d (a + 8) 4 m
    chk d.unchecked (checkVec d 4 24 8 a m)
    let x ← loadPtr d m a
    let n ← ldN d m (a + 8) 4
    if n = 0 then .ok m
    else do
      let el ← toAddr x
      forFrom (fun i m => deserNode d f (el + i * 24) m) 0 n m

/-- A node at address 4096 whose only child is itself. -/
def loopMem : Mem := segs [(4096, encI .little 0 ++ leBytes 4 1 ++ leBytes 4 1 ++ leBytes 8 0)]

/-- Checked, no conversion. -/
abbrev loopEnv : DEnv := plainCfg.env 0 4096 24

/-- C40 is violated for types that contain vectors (or unique pointers) of themselves: a node that is its own child passes all checks,
and deserialization never ends, whatever the bound on the recursion. -/
theorem C40_recursive_violated (fuel : Nat) : deserNode loopEnv fuel 4096 loopMem = .error .diverge := by
  induction fuel with
  | zero => rfl
  | succ f ih =>
    unfold deserNode
    have h1 : checkAddr loopEnv 4096 24 8 = .ok () := by decide +kernel
    have h2 : deserPtr loopEnv 24 8 4096 loopMem = .ok loopMem := by
      have h : (match deserPtr loopEnv 24 8 4096 loopMem with | .ok _ => true | .error _ => false) = true := by decide +kernel
      cases hr : deserPtr loopEnv 24 8 4096 loopMem with
      | error e => rw [hr] at h; cases h
      | ok m => rw [deserPtr_id (d := loopEnv) (by decide) rfl hr]
    have h3 : ∀ a w, convInt loopEnv a w loopMem = .ok loopMem := fun _ _ => rfl
    have h4 : chk loopEnv.unchecked (checkVec loopEnv 4 24 8 4096 loopMem) = .ok () := by decide +kernel
    have h5 : loadPtr loopEnv loopMem 4096 = .ok 4096 := by decide +kernel
    have h6 : ldN loopEnv loopMem (4096 + 8) 4 = .ok 1 := by decide +kernel
    have h7 : toAddr 4096 = .ok 4096 := by decide +kernel
    rw [show ((4096 : Nat) : Int) = 4096 from rfl, h1, ok_bind, ok_bind, h2, ok_bind, h3, ok_bind, h3, ok_bind, h4, ok_bind, h5, ok_bind, h6, ok_bind,
      if_neg (by decide), h7, ok_bind]
    unfold forFrom
    rw [show 4096 + 0 * 24 = 4096 from rfl, ih, error_bind]

/-! ## Strings -/

/-- A string at address 64 on the heap, with storage at 128 but without characters. -/
def emptyMem : Mem := segs [(64, [0#8, 1#8, 0#8, 0#8] ++ leBytes 4 0 ++ encI .little 56)]

/-- What `serialize` writes for a string without characters that still has storage: size 0 and an offset to the end of the data. -/
theorem ser_emptied {th sh : HashT} {mem : Mem} {a x : Nat} (hm : mem a = 0#8) (hn : rdN .little mem (a + 4) 4 = 0)
    (hp : ptrAt .little false mem (a + 8) = some x) :
    ∃ b : Mem, serialize .little false 0 th sh mem .str a = .ok (rd b 0 16) ∧ b 0 = 0#8 ∧ rd b 4 4 = rd mem (a + 4) 4 ∧
      rd b 8 8 = encI .little 8 := by
  refine ⟨wr (wr (wr (wr (wr (wr (fun _ => 0#8) 0 []) 0 (rd mem a 16)) 16 []) 8 (encI .little 8)) 4 (rd mem (a + 4) 4)) 1 [0#8], ?_, ?_, ?_, ?_⟩
  · have hcv : conversionNecessary .little 0 = false := by decide
    have hh : header .little 0 th sh = [] := rfl
    unfold serialize serRoot
    rw [hh, hcv]
    unfold ser serStr
    simp only
    rw [hm, if_neg (by decide), if_pos rfl]
    unfold serLong
    simp only
    rw [hp]
    simp only [hn]
    have hp1 : put ⟨0, fun _ => 0#8, [], [], []⟩ [] 0 = (⟨0, wr (fun _ => 0#8) 0 [], [], [], []⟩, 0) := rfl
    have hp2 : put ⟨0, wr (fun _ => 0#8) 0 [], [], [], []⟩ (rd mem a Ty.str.sizeof) Ty.str.alignof =
        (⟨16, wr (wr (fun _ => 0#8) 0 []) 0 (rd mem a 16), [], [], []⟩, 0) := by
      unfold put
      simp [Ty.sizeof, Ty.alignof, Target.alignUp]
    rw [hp1]
    simp only
    rw [hp2]
    simp only
    have hp3 : put ⟨16, wr (wr (fun _ => 0#8) 0 []) 0 (rd mem a 16), [], [], []⟩ (rd mem x 0) 0 =
        (⟨16, wr (wr (wr (fun _ => 0#8) 0 []) 0 (rd mem a 16)) 16 [], [], [], []⟩, 16) := rfl
    rw [hp3]
    simp only
    unfold patchOff
    rw [patch_ok (by simp [cv]), ok_bind, patch_ok (by simp [cv]), ok_bind, patch_ok (by simp), ok_bind]
    simp only
    unfold resolvePending
    rw [ok_bind]
    rfl
  · rw [wr_out (by simp), wr_out (by simp), wr_out (by simp), wr_out (by simp)]
    have h := rd_wr_same' (wr (fun _ => 0#8) 0 []) 0 16 (rd mem a 16) (by simp)
    rw [rd_eq_iff] at h
    exact (h 0 (by decide)).trans hm
  · rw [rd_wr_disj (by simp), rd_wr_same' _ _ _ _ (by simp)]
  · rw [rd_wr_disj (by simp), rd_wr_disj (by simp), rd_wr_same' _ _ _ _ (by simp)]

/-- C41 is violated for strings emptied by `erase`: `assign` of a long text and `erase` of all characters leave size 0 and a pointer;
`serialize` writes that (serialization.h:223-239), the check of `deserialize` (834-835) rejects it.  This holds for every string in that
state, wherever the bytes are loaded. -/
theorem C41_string_violated :
    ((Str.run 15 false (Str.St.start Str.demoExt 3) [.assign 0 0 0 20, .erase 0 0 20]).bind fun st => .ok
      (match st.strs 0 with | .heap true 0 (some _) => true | _ => false)) = .ok true ∧
    ∀ (th sh : HashT) (mem : Mem) (a x : Nat), mem a = 0#8 → rdN .little mem (a + 4) 4 = 0 → ptrAt .little false mem (a + 8) = some x →
      ∃ bytes, serialize .little false 0 th sh mem .str a = .ok bytes ∧ ∀ (g : Cfg) base mem2, g.host = .little → g.raw = false →
        g.strict = false → (∀ n, 0 < (g.tys n).alignof) → 0 < base → base + bytes.length < 2 ^ 63 → rd mem2 base bytes.length = bytes →
        deserialize g 0 th sh .str base bytes.length mem2 = .error .exn := by
  refine ⟨by decide +kernel, fun th sh mem a x hm hn hp => ?_⟩
  obtain ⟨b, h1, h2, h3, h4⟩ := ser_emptied (th := th) (sh := sh) hm hn hp
  refine ⟨_, h1, fun g base mem2 hh hr hst hal hb0 hb1 hrd => ?_⟩
  rw [length_rd] at hb1 hrd ⊢
  have hc : conversionNecessary g.host 0 = false := by rw [hh]; decide
  have hd : DeepCfg g 0 .str 16 0 := ⟨by decide, hst, trivial, trivial, fun n h => absurd h (Nat.not_lt_zero n), hal, by omega⟩
  rcases C39_safe_partial (th := th) (sh := sh) (mem := mem2) (base := base) (len := 16) (by decide) hb0 hb1 (t := .str) trivial hd
    (Or.inl trivial) with h | ⟨mem', h, _, hsafe, _⟩
  · exact h
  have hmem := C55_read_only g 0 th sh .str base 16 mem2 mem' _ hc hr h
  subst hmem
  have h0 : dataStart 0 = 0 := by decide
  have hsafe := hsafe (Or.inr ⟨hc, hr⟩)
  rw [h0, Nat.add_zero] at hsafe
  have hb : ∀ k j, k + j ≤ 16 → rd mem' (base + k) j = rd b k j := fun k j hk => by
    have := rd_sub hrd hk
    rwa [Nat.zero_add] at this
  have e0 : mem' base = 0#8 := by
    have := rd_eq_iff.1 hrd 0 (by decide)
    exact this.trans h2
  have e4 : rdN g.host mem' (base + 4) 4 = 0 := by
    unfold rdN
    rw [hh, hb 4 4 (by decide), h3]
    exact hn
  have e8 : ptrAt g.host g.raw mem' (base + 8) = some (base + 16) := by
    unfold ptrAt
    rw [hr, if_neg (by decide), hh, hb 8 8 (by decide), h4, decI_encI (by decide), if_neg (by decide), if_neg (by omega)]
    congr 1
  obtain ⟨_, h | ⟨_, _, hsafe⟩⟩ := hsafe
  · rw [e0] at h; cases h
  change match ptrAt g.host g.raw mem' (base + 8) with
    | none => rdN g.host mem' (base + 4) 4 = 0
    | some x => 0 < rdN g.host mem' (base + 4) 4 ∧ InB (g.env 0 base 16) x (rdN g.host mem' (base + 4) 4) 1 at hsafe
  rw [e8] at hsafe
  have hsafe : 0 < rdN g.host mem' (base + 4) 4 ∧ _ := hsafe
  rw [e4] at hsafe
  exact absurd hsafe.1 (Nat.lt_irrefl 0)

example : ∃ bytes, serialize .little false 0 0 0 emptyMem .str 64 = .ok bytes ∧ ∀ mem2, bytes.length = 16 → rd mem2 4096 bytes.length = bytes →
    deserialize plainCfg 0 0 0 .str 4096 bytes.length mem2 = .error .exn := by
  obtain ⟨bytes, h1, h2⟩ := C41_string_violated.2 0 0 emptyMem 64 128 (by decide +kernel) (by decide +kernel) (by decide +kernel)
  exact ⟨bytes, h1, fun mem2 hl hrd => h2 plainCfg 4096 mem2 rfl rfl rfl (fun _ => by show 0 < 4; decide) (by decide) (by rw [hl]; decide) hrd⟩

end Cista.Ser

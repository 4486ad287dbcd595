import Verif.Io.Props

/-!
# copy_from_potentially_unaligned

The value is returned by copy, the aligned copy of the bytes is freed.  Copying a vector, array, optional, variant, hash table or aggregate
copies its elements into own storage (vector.h:75-78, hash_storage.h:275-281), copying a string that does not own its characters does not
(string.h:163-175).
-/
set_option linter.unusedSimpArgs false
set_option linter.unusedSectionVars false

namespace Cista.Ser

open Cista.Arith (Mode)
open Cista.Hash (HashT dataStart)

/-- Memory afterwards, address of the deserialized value that is copied, freed memory `[freed.1, freed.1 + freed.2)`. -/
structure Copied where
  mem : Mem
  root : Nat
  freed : Nat × Nat

/-- serialization.h:1127-1148 for `b` at `addr`; `heap` is the (aligned) address of the copy; `sizeof(max_align_t)` is 32. -/
def copyUnaligned (g : Cfg) (m : Mode) (th sh : HashT) (t : Ty) (b : List Byte) (addr heap : Nat) (mem : Mem) : Res Copied :=
  if addr % 32 = 0 then do
    let r ← deserialize g m th sh t addr b.length (wr mem addr b)
    .ok ⟨r.1, r.2, (0, 0)⟩
  else do
    let r ← deserialize g m th sh t heap b.length (wr (wr mem addr b) heap b)
    .ok ⟨r.1, r.2, (heap, b.length)⟩

/-- The copy of the value at `a` refers to the `n` bytes at `p` without owning them. -/
def Refers (s : Side) : Ty → Nat → (p n : Nat) → Prop
  | .ptr _, a, p, n => s.ptr a = some p ∧ n = 1
  | .str, a, p, n => s.mem a = 0#8 ∧ s.ptr (a + 8) = some p ∧ n = s.nat (a + 4) 4
  | .vec sw _ ty, a, p, n => ∃ x, s.ptr a = some x ∧ ∃ i, i < s.nat (a + 8) sw ∧ Refers s ty (x + i * ty.sizeof) p n
  | .hash ty, a, p, n => ∃ x c, s.ptr a = some x ∧ s.ptr (a + 8) = some c ∧ ∃ i, i < s.nat (a + 24) 8 ∧ Full s.mem c i ∧
      Refers s ty (x + i * ty.sizeof) p n
  | .uptr ty, a, p, n => ∃ x, s.ptr a = some x ∧ Refers s ty x p n
  | .opt ty, a, p, n => s.mem a = 1#8 ∧ Refers s ty (a + ty.alignof) p n
  | .var ib so _ _ k ty, a, p, n => ∃ i : Fin k, s.nat a ib = i.1 ∧ Refers s (ty i) (a + so) p n
  | .arr k ty, a, p, n => ∃ i, i < k ∧ Refers s ty (a + i * ty.sizeof) p n
  | .idx ty, a, p, n => Refers s ty a p n
  | .agg _ _ k off ty, a, p, n => ∃ i : Fin k, Refers s (ty i) (a + off i) p n
  | .int _, _, _, _ => False
  | .blob _ _, _, _, _ => False

/-- No strings and no pointer members. -/
def Ty.Owning : Ty → Prop
  | .int _ => True
  | .blob _ _ => True
  | .ptr _ => False
  | .vec _ _ t => t.Owning
  | .str => False
  | .uptr _ => False
  | .hash t => t.Owning
  | .opt t => t.Owning
  | .var _ _ _ _ _ t => ∀ i, (t i).Owning
  | .arr _ t => t.Owning
  | .idx t => t.Owning
  | .agg _ _ _ _ t => ∀ i, (t i).Owning

theorem Ty.Owning.refers {s : Side} {p n : Nat} : ∀ {t : Ty} {a : Nat}, t.Owning → ¬ Refers s t a p n
  | .int _, _, _ => id
  | .blob _ _, _, _ => id
  | .vec _ _ t, _, h => fun ⟨_, _, _, _, h'⟩ => Ty.Owning.refers (t := t) h h'
  | .hash t, _, h => fun ⟨_, _, _, _, _, _, _, h'⟩ => Ty.Owning.refers (t := t) h h'
  | .opt t, _, h => fun ⟨_, h'⟩ => Ty.Owning.refers (t := t) h h'
  | .var _ _ _ _ _ t, _, h => fun ⟨i, _, h'⟩ => Ty.Owning.refers (t := t i) (h i) h'
  | .arr _ t, _, h => fun ⟨_, _, h'⟩ => Ty.Owning.refers (t := t) h h'
  | .idx t, _, h => fun h' => Ty.Owning.refers (t := t) h h'
  | .agg _ _ _ _ t, _, h => fun ⟨i, h'⟩ => Ty.Owning.refers (t := t i) (h i) h'

/-- C85: bytes of a serialized value at any address, aligned or not, give an equal value, and the returned value does not refer to freed
memory.

Partial: only for types without strings and pointers, see `C85_string_violated`. -/
theorem C85_copy_partial {host : Endian} {raw : Bool} {m : Mode} {th sh : HashT} {mem : Mem} {t : Ty} {a : Nat}
    (hs : Source host raw m mem t a) (hcast : Mode.isEnabled m Mode.CAST = false) :
    ∃ bytes, serialize host raw m th sh mem t a = .ok bytes ∧ ∀ g addr heap mem2,
      (addr % 32 = 0 → Reader host raw m mem t a g addr bytes.length) → Reader host raw m mem t a g heap bytes.length →
      ∃ r, copyUnaligned g m th sh t bytes addr heap mem2 = .ok r ∧
        Same ⟨host, raw, mem⟩ ⟨g.host, g.raw, r.mem⟩ (Follows ⟨host, raw, mem⟩ ⟨g.host, g.raw, r.mem⟩ t a r.root) t a r.root ∧
        (t.Owning → ∀ p n x, Refers ⟨g.host, g.raw, r.mem⟩ t r.root p n → p ≤ x → x < p + n →
          x < r.freed.1 ∨ r.freed.1 + r.freed.2 ≤ x) := by
  obtain ⟨bytes, h1, h2⟩ := C37_round_trip_partial (th := th) (sh := sh) hs hcast
  refine ⟨bytes, h1, fun g addr heap mem2 hr1 hr2 => ?_⟩
  unfold copyUnaligned
  by_cases ha : addr % 32 = 0
  · obtain ⟨mem', d1, d2, _⟩ := h2 g addr (wr mem2 addr bytes) (hr1 ha) (rd_wr_same _ _ _)
    rw [if_pos ha, d1, ok_bind]
    exact ⟨_, rfl, d2, fun ho p n x h => absurd h ho.refers⟩
  · obtain ⟨mem', d1, d2, _⟩ := h2 g heap (wr (wr mem2 addr bytes) heap bytes) hr2 (rd_wr_same _ _ _)
    rw [if_neg ha, d1, ok_bind]
    exact ⟨_, rfl, d2, fun ho p n x h => absurd h ho.refers⟩

/-- The demonstration value from an odd address: its bytes are copied to 8192. -/
example : ∃ bytes r, serialize .little false demoMode 17#64 23#64 demoMem demoRoot 64 = .ok bytes ∧
    copyUnaligned demoCfg demoMode 17#64 23#64 demoRoot bytes 4097 8192 (fun _ => 0#8) = .ok r ∧
    Same ⟨.little, false, demoMem⟩ ⟨.big, true, r.mem⟩ (Follows ⟨.little, false, demoMem⟩ ⟨.big, true, r.mem⟩ demoRoot 64 r.root) demoRoot 64 r.root := by
  obtain ⟨bytes, h1, h2⟩ := C85_copy_partial (th := 17#64) (sh := 23#64) (demo_source demoMode (by decide) (by decide)) (by decide)
  have hl := demo_len
  rw [h1] at hl
  have hl : bytes.length = 84 := hl
  obtain ⟨r, e1, e2, _⟩ := h2 demoCfg 4097 8192 (fun _ => 0#8) (fun h => absurd h (by decide))
    (demo_reader 8192 bytes.length (by decide) (by decide) (by decide) (by omega))
  exact ⟨bytes, r, h1, e1, e2⟩

example : (Ty.vec 4 true (.agg 8 4 2 (fun i => i.1 * 4) fun _ => .int 4)).Owning := fun _ => trivial

/-- A string of 16 characters at 64. -/
def longStr : Mem := segs [(64, [0#8, 1#8]), (68, leBytes 4 16), (72, encI .little 56), (128, List.replicate 16 97#8)]

/-- C85 fails for every string with characters on the heap (more than 15 characters), loaded from an address that is not a multiple of 32: the
returned string refers to the freed copy with all its characters.  (From an aligned address it refers to the caller's bytes.) -/
theorem C85_string_violated {host : Endian} {m : Mode} {th sh : HashT} {mem : Mem} {a x : Nat} (hv : Mode.isEnabled m Mode.SKIP_VERSION = false)
    (hi : Mode.isEnabled m Mode.SKIP_INTEGRITY = false) (hcast : Mode.isEnabled m Mode.CAST = false)
    (hchk : Mode.isEnabled m Mode.UNCHECKED = false) (hm : mem a = 0#8) (hn : 0 < rdN host mem (a + 4) 4)
    (hp : ptrAt host false mem (a + 8) = some x) :
    ∃ bytes, serialize host false m th sh mem .str a = .ok bytes ∧ ∀ (g : Cfg) addr heap mem2, g.raw = false → g.strict = false →
      conversionNecessary g.host m = false → (∀ n, 0 < (g.tys n).alignof) → addr % 32 ≠ 0 → 0 < heap → heap % 8 = 0 →
      heap + bytes.length < 2 ^ 63 →
      ∃ r p, copyUnaligned g m th sh .str bytes addr heap mem2 = .ok r ∧
        Refers ⟨g.host, g.raw, r.mem⟩ .str r.root p (rdN host mem (a + 4) 4) ∧ r.freed.1 ≤ p ∧
        p + rdN host mem (a + 4) 4 ≤ r.freed.1 + r.freed.2 := by
  have hs : Source host false m mem .str a := by
    refine ⟨hv, hi, trivial, ?_, Or.inr ⟨hm, ?_⟩, fun _ _ _ _ _ _ h => h.elim⟩
    · show 8 ∣ dataStart m
      unfold dataStart Hash.integrityStart
      split <;> split <;> decide
    · show rdN host mem (a + 4) 4 = 0 ↔ ptrAt host false mem (a + 8) = none
      rw [hp]
      exact ⟨fun h => by omega, fun h => by cases h⟩
  obtain ⟨bytes, h1, h2⟩ := C37_round_trip_partial (th := th) (sh := sh) hs hcast
  refine ⟨bytes, h1, fun g addr heap mem2 hr hst hc hal ha hh h8 ht => ?_⟩
  have hd : DeepCfg g m .str bytes.length 0 := ⟨hchk, hst, trivial, trivial, fun n h => absurd h (Nat.not_lt_zero n), hal, by omega⟩
  obtain ⟨mem', d1, d2, _⟩ := h2 g heap (wr (wr mem2 addr bytes) heap bytes)
    ⟨hh, ht, Nat.dvd_of_mod_eq_zero h8, trivial, trivial, fun _ => ⟨0, hd⟩⟩ (rd_wr_same _ _ _)
  rcases C39_safe_partial (th := th) (sh := sh) (mem := wr (wr mem2 addr bytes) heap bytes) (base := heap) hcast hh ht (t := .str) trivial hd
    (Or.inl trivial) with h | ⟨mem'', h, _, hsafe, _⟩
  · rw [d1] at h; cases h
  rw [d1] at h
  injection h with h
  injection h with h _
  subst h
  have hsafe := hsafe (Or.inr ⟨hc, hr⟩)
  obtain ⟨e1, e2⟩ := d2
  have e1 : mem' (heap + dataStart m) = mem a := e1
  have e2 : (mem a = 1#8 ∧ _) ∨ (mem a = 0#8 ∧ mem' (heap + dataStart m + 1) = 0#8 ∧
    rdN g.host mem' (heap + dataStart m + 4) 4 = rdN host mem (a + 4) 4 ∧ _) := e2
  rcases e2 with ⟨h, _⟩ | ⟨_, _, e3, _⟩
  · rw [hm] at h; cases h
  obtain ⟨_, h | ⟨_, _, hsafe⟩⟩ := hsafe
  · rw [e1, hm] at h; cases h
  change match ptrAt g.host g.raw mem' (heap + dataStart m + 8) with
    | none => rdN g.host mem' (heap + dataStart m + 4) 4 = 0
    | some x => 0 < rdN g.host mem' (heap + dataStart m + 4) 4 ∧
      InB (g.env m heap bytes.length) x (rdN g.host mem' (heap + dataStart m + 4) 4) 1 at hsafe
  rw [e3] at hsafe
  cases hq : ptrAt g.host g.raw mem' (heap + dataStart m + 8) with
  | none =>
    rw [hq] at hsafe
    have hsafe : rdN host mem (a + 4) 4 = 0 := hsafe
    omega
  | some q =>
    rw [hq] at hsafe
    obtain ⟨_, i1, i2, _⟩ := hsafe
    refine ⟨⟨mem', heap + dataStart m, (heap, bytes.length)⟩, q, ?_, ⟨e1.trans hm, hq, e3.symm⟩, i1, i2⟩
    unfold copyUnaligned
    rw [if_neg ha, d1, ok_bind]

/-- The string at 64, from an odd address. -/
example : ∃ bytes r p, serialize .little false Mode.WITH_VERSION 17#64 23#64 longStr .str 64 = .ok bytes ∧
    copyUnaligned ⟨.little, false, false, fun _ => .int 4, 1000, fun _ => 0#64⟩ Mode.WITH_VERSION 17#64 23#64 .str bytes 4097 8192
      (fun _ => 0#8) = .ok r ∧
    Refers ⟨.little, false, r.mem⟩ .str r.root p 16 ∧ r.freed.1 ≤ p ∧ p + 16 ≤ r.freed.1 + r.freed.2 := by
  have h16 : rdN .little longStr (64 + 4) 4 = 16 := by decide +kernel
  have hl : (match serialize .little false Mode.WITH_VERSION 17#64 23#64 longStr .str 64 with
    | .ok b => b.length | .error _ => 0) = 40 := by decide +kernel
  obtain ⟨bytes, h1, h2⟩ := C85_string_violated (host := .little) (m := Mode.WITH_VERSION) (th := 17#64) (sh := 23#64) (mem := longStr) (a := 64)
    (x := 128) (by decide) (by decide) (by decide) (by decide) (by decide +kernel) (by rw [h16]; decide) (by decide +kernel)
  rw [h1] at hl
  have hl : bytes.length = 40 := hl
  obtain ⟨r, p, h3, h4, h5, h6⟩ := h2 ⟨.little, false, false, fun _ => .int 4, 1000, fun _ => 0#64⟩ 4097 8192 (fun _ => 0#8) rfl rfl (by decide)
    (fun _ => by show 0 < 4; decide) (by decide) (by decide) (by decide) (by rw [hl]; decide)
  rw [h16] at h4 h6
  exact ⟨bytes, r, p, h1, h3, h4, h5, h6⟩

end Cista.Ser

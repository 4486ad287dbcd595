import Verif.Io.Target
import Verif.Ser.Demo

/-!
# Serialization into every target; files

`write`, `read` and `read_mmap` (include/cista/io.h) over a file system that maps paths to contents.
-/
set_option linter.unusedSimpArgs false
set_option linter.unusedSectionVars false

namespace Cista.Ser

open Cista.Arith (Mode)
open Cista.Target (alignUp)
open Cista.Hash (HashT versionBytes dataStart integrityStart bufChecksum)

/-! ## C83: every target receives the same bytes -/

/-- Alignment relative to the beginning of a file never matters. -/
theorem Ty.al_zero : ∀ t : Ty, t.Al 0
  | .int _ => Nat.dvd_zero _
  | .blob _ _ => Nat.dvd_zero _
  | .ptr _ => Nat.dvd_zero _
  | .vec _ _ t => ⟨Nat.dvd_zero _, t.al_zero⟩
  | .str => Nat.dvd_zero _
  | .uptr t => ⟨Nat.dvd_zero _, t.al_zero⟩
  | .hash t => ⟨Nat.dvd_zero _, t.al_zero⟩
  | .opt t => t.al_zero
  | .var _ _ _ _ _ t => ⟨Nat.dvd_zero _, fun i => (t i).al_zero⟩
  | .arr _ t => t.al_zero
  | .idx t => t.al_zero
  | .agg _ _ _ _ t => ⟨Nat.dvd_zero _, fun i => (t i).al_zero⟩

/-- A mapping that was opened for writing (the file is cut to no bytes, mmap.h:31-38). -/
def freshMmap (page : Nat) : MmapVec.St := MmapVec.openFile ⟨1, page, [0#8]⟩ [] 0

/-- C83: `serialize` into a `std::vector<uint8_t>`, into a file and into a mapped file leaves the very same bytes, whatever the addresses
at which the vector or the mapping is placed from call to call (aligned for the types inside), whatever the block size of the file's
checksum; the mapped file has this content after the mapping is closed. -/
theorem C83_targets_agree {host : Endian} {raw : Bool} {m : Mode} {th sh : HashT} {mem : Mem} {t : Ty} {a : Nat}
    (hs : Source host raw m mem t a) :
    ∃ bytes, serialize host raw m th sh mem t a = .ok bytes ∧ bytes ≠ [] ∧
      (∀ block, 0 < block → serializeT (fileT block) host raw m th sh mem t a ⟨[], 0⟩ = .ok ⟨bytes, bytes.length⟩) ∧
      ∀ M (bases : Nat → Nat), t.Al M → (∀ k, M ∣ bases k) →
        (∃ k, serializeT (bufT bases) host raw m th sh mem t a ([], 0) = .ok (bytes, k)) ∧
        (bytes.length ≤ 2 ^ 63 → ∀ page, ∃ st k, serializeT (mmapT bases) host raw m th sh mem t a (freshMmap page, 0) = .ok (st, k) ∧
          st.file.take st.used = bytes ∧ (MmapVec.close ⟨1, page, [0#8]⟩ st).1 = bytes) := by
  obtain ⟨bytes, h1, h2, _⟩ := api_round_trip (th := th) (sh := sh) hs.version hs.integrity hs.wf hs.root hs.live hs.apart
  have hne : bytes ≠ [] := by
    intro h
    subst h
    have h2 := h2 host
    unfold Hash.check at h2
    rw [decide_eq_false (show ¬ ([] : List Byte).length > dataStart m by simp)] at h2
    cases h2
  refine ⟨bytes, h1, hne, fun block hb => ?_, fun M bases ha hb => ⟨?_, fun hB page => ?_⟩⟩
  · obtain ⟨s', buf, e, ⟨r1, r2⟩, r3, _⟩ := serializeT_ok (fileT_does hb 0 bytes.length) (s := ⟨[], 0⟩) ⟨rfl, rfl⟩ hs.wf t.al_zero h1
      (Nat.le_refl _)
    rw [e]
    obtain ⟨l, n⟩ := s'
    have r1 : l = rd buf 0 bytes.length := r1
    have r2 : n = bytes.length := r2
    rw [r1, r2, r3]
  · obtain ⟨s', buf, e, r1, r3, _⟩ := serializeT_ok (bufT_does hb bytes.length) (s := ([], 0)) rfl hs.wf ha h1 (Nat.le_refl _)
    obtain ⟨l, k⟩ := s'
    have r1 : l = rd buf 0 bytes.length := r1
    exact ⟨k, by rw [e, r1, r3]⟩
  · obtain ⟨s', buf, e, r1, r3, r4⟩ := serializeT_ok (mmapT_does hb) (s := (freshMmap page, 0))
      ⟨rfl, Nat.zero_le _, rfl, fun h => absurd h (Nat.lt_irrefl 0)⟩ hs.wf ha h1 hB
    obtain ⟨st, k⟩ := s'
    have r1 : MRel st bytes.length buf := r1
    have hl := List.length_pos_iff.2 hne
    refine ⟨st, k, e, ?_, ?_⟩
    · rw [r1.file, r1.used, rd_take _ _ _ r1.le, r3]
    · have hm := r1.mapped (by have := r1.le; omega)
      unfold MmapVec.close MmapVec.ftruncate
      rw [if_pos hm]
      show st.file.take st.used ++ List.replicate (st.used - st.file.length) 0 = bytes
      have hfl : st.used - st.file.length = 0 := by
        rw [r1.file, length_rd, r1.used]
        have := r1.le
        omega
      rw [hfl, r1.file, r1.used, rd_take _ _ _ r1.le, r3, List.replicate_zero, List.append_nil]

/-- The demonstration value in all three targets; the vector moves between the calls. -/
example : ∃ bytes, bytes.length = 84 ∧
    serializeT (fileT 16) .little false demoMode 17#64 23#64 demoMem demoRoot 64 ⟨[], 0⟩ = .ok ⟨bytes, 84⟩ ∧
    (∃ k, serializeT (bufT fun k => 16 * (k + 3)) .little false demoMode 17#64 23#64 demoMem demoRoot 64 ([], 0) = .ok (bytes, k)) ∧
    ∃ st k, serializeT (mmapT fun k => 4096 * (k % 2)) .little false demoMode 17#64 23#64 demoMem demoRoot 64 (freshMmap 4096, 0) = .ok (st, k) ∧
      (MmapVec.close ⟨1, 4096, [0#8]⟩ st).1 = bytes := by
  obtain ⟨bytes, h1, _, h2, h3⟩ := C83_targets_agree (th := 17#64) (sh := 23#64) (demo_source demoMode (by decide) (by decide))
  have hl := demo_len
  rw [h1] at hl
  have hl : bytes.length = 84 := hl
  have h8 : demoRoot.Al 8 := demo_al 8 (Nat.dvd_refl 8)
  obtain ⟨st, k, e1, _, e2⟩ := (h3 8 (fun k => 4096 * (k % 2)) h8 (fun k => ⟨512 * (k % 2), by omega⟩)).2 (by omega) 4096
  exact ⟨bytes, hl, by rw [h2 16 (by decide), hl], (h3 8 (fun k => 16 * (k + 3)) h8 (fun k => ⟨2 * (k + 3), by omega⟩)).1, st, k, e1, e2⟩

/-- Outside of the domain of C83: a type with alignment 32 in a vector (`malloc` aligns to 16): in the file the object starts at 32, in the vector at 16
(neither is where `deserialize` expects it, see C43). -/
theorem C44_targets_differ_violated :
    (match serializeT (fileT 512) .little false Mode.WITH_VERSION 17#64 23#64 (fun _ => 1#8) (.blob 32 32) 64 ⟨[], 0⟩,
      serializeT (bufT fun _ => 16) .little false Mode.WITH_VERSION 17#64 23#64 (fun _ => 1#8) (.blob 32 32) 64 ([], 0) with
    | .ok f, .ok b => (f.content.length, b.1.length)
    | _, _ => (0, 0)) = (64, 48) := by decide +kernel

/-! ## C84: files -/

/-- File contents by path. -/
abbrev Fs := List Char → Option (List Byte)

/-- io.h:19-25 `write`: the file is created or cut ("w+", mmap.h:31-38), mapped, filled, and cut to its size when `writer` is destroyed
(mmap.h:40-49).  No i/o errors. -/
def writeFile (bases : Nat → Nat) (page : Nat) (host : Endian) (raw : Bool) (m : Mode) (th sh : HashT) (mem : Mem) (t : Ty) (a : Nat)
    (fs : Fs) (p : List Char) : Res Fs := do
  let s ← serializeT (mmapT bases) host raw m th sh mem t a (freshMmap page, 0)
  .ok fun q => if q = p then some (MmapVec.close ⟨1, page, [0#8]⟩ s.1).1 else fs q

/-- io.h:32-38 `read`: file.h:208-212 (a missing file throws), file.h:252-256 `content` into a buffer at `base`, `deserialize`; the
returned `wrapped` (see C43, C54) holds the buffer and the root's address. -/
def readFile (g : Cfg) (m : Mode) (th sh : HashT) (t : Ty) (fs : Fs) (p : List Char) (base : Nat) (mem : Mem) : Res (Mem × Nat) :=
  match fs p with
  | none => .error .exn
  | some b => deserialize g m th sh t base b.length (wr mem base b)

/-- io.h:40-47 `read_mmap`: the bytes are mapped read-only at `base`; changing one of them is a fault. -/
def readMmap (g : Cfg) (m : Mode) (th sh : HashT) (t : Ty) (fs : Fs) (p : List Char) (base : Nat) (mem : Mem) : Res (Mem × Nat) :=
  match fs p with
  | none => .error .exn
  | some b => do
    let r ← deserialize g m th sh t base b.length (wr mem base b)
    require (decide (rd r.1 base b.length = b))
    .ok r

/-- C84: a value written to a file is read back equal, wherever the buffer is placed and on a machine of either byte order; whatever was in
the file before is gone, other files are as before.  (`Reader` and `Source` as in C73.) -/
theorem C84_write_read {host : Endian} {raw : Bool} {m : Mode} {th sh : HashT} {mem : Mem} {t : Ty} {a : Nat}
    (hs : Source host raw m mem t a) (hcast : Mode.isEnabled m Mode.CAST = false) :
    ∃ bytes, serialize host raw m th sh mem t a = .ok bytes ∧ (bytes.length ≤ 2 ^ 63 →
      ∀ M (bases : Nat → Nat) page fs p, t.Al M → (∀ k, M ∣ bases k) →
      ∃ fs', writeFile bases page host raw m th sh mem t a fs p = .ok fs' ∧ fs' p = some bytes ∧ (∀ q, q ≠ p → fs' q = fs q) ∧
        ∀ g base mem2, Reader host raw m mem t a g base bytes.length →
          ∃ mem', readFile g m th sh t fs' p base mem2 = .ok (mem', base + dataStart m) ∧
            Same ⟨host, raw, mem⟩ ⟨g.host, g.raw, mem'⟩ (Follows ⟨host, raw, mem⟩ ⟨g.host, g.raw, mem'⟩ t a (base + dataStart m))
              t a (base + dataStart m) ∧
            (∀ x, x < base ∨ base + bytes.length ≤ x → mem' x = mem2 x) ∧
            (conversionNecessary g.host m = false → g.raw = false →
              readMmap g m th sh t fs' p base mem2 = .ok (mem', base + dataStart m))) := by
  obtain ⟨bytes, h1, _, _, h3⟩ := C83_targets_agree (th := th) (sh := sh) hs
  obtain ⟨bytes', h1', h2⟩ := C37_round_trip_partial (th := th) (sh := sh) hs hcast
  rw [h1] at h1'
  injection h1' with h1'
  subst h1'
  refine ⟨bytes, h1, fun hB M bases page fs p ha hb => ?_⟩
  obtain ⟨st, k, e1, _, e2⟩ := (h3 M bases ha hb).2 hB page
  refine ⟨fun q => if q = p then some bytes else fs q, ?_, if_pos rfl, fun q hq => if_neg hq, fun g base mem2 hr => ?_⟩
  · unfold writeFile
    rw [e1, ok_bind, e2]
  · have hrd : rd (wr mem2 base bytes) base bytes.length = bytes := rd_wr_same _ _ _
    obtain ⟨mem', d1, d2, d3⟩ := h2 g base (wr mem2 base bytes) hr hrd
    refine ⟨mem', ?_, d2, fun x hx => ?_, fun hc hg => ?_⟩
    · unfold readFile
      dsimp only
      rw [if_pos rfl]
      exact d1
    · rw [d3 x (by omega), wr_out hx]
    · unfold readMmap
      dsimp only
      rw [if_pos rfl]
      dsimp only
      have := C55_read_only g m th sh t base bytes.length _ mem' _ hc hg d1
      subst this
      rw [d1, ok_bind]
      dsimp only
      rw [decide_eq_true hrd, require_true, ok_bind]

/-- A file with some other content is overwritten and read back on a big endian machine with raw pointers. -/
example : ∃ fs' mem', writeFile (fun k => 4096 * k) 4096 .little false demoMode 17#64 23#64 demoMem demoRoot 64
      (fun _ => some [1#8, 2#8]) ['a'] = .ok fs' ∧ fs' ['b'] = some [1#8, 2#8] ∧
    readFile demoCfg demoMode 17#64 23#64 demoRoot fs' ['a'] 4096 (fun _ => 0#8) = .ok (mem', 4112) ∧
      Same ⟨.little, false, demoMem⟩ ⟨.big, true, mem'⟩ (Follows ⟨.little, false, demoMem⟩ ⟨.big, true, mem'⟩ demoRoot 64 4112) demoRoot 64 4112 := by
  obtain ⟨bytes, h1, h2⟩ := C84_write_read (th := 17#64) (sh := 23#64) (demo_source demoMode (by decide) (by decide)) (by decide)
  have hl := demo_len
  rw [h1] at hl
  have hl : bytes.length = 84 := hl
  obtain ⟨fs', e1, _, e3, e4⟩ := h2 (by omega) 8 (fun k => 4096 * k) 4096 (fun _ => some [1#8, 2#8]) ['a'] (demo_al 8 (Nat.dvd_refl 8))
    (fun k => ⟨512 * k, by omega⟩)
  obtain ⟨mem', d1, d2, _⟩ := e4 demoCfg 4096 (fun _ => 0#8) (demo_reader 4096 bytes.length (by decide) (by decide) (by decide) (by omega))
  exact ⟨fs', mem', e1, e3 ['b'] (by decide), d1, d2⟩

/-- C84: a missing file is an exception. -/
theorem C84_missing (g : Cfg) (m : Mode) (th sh : HashT) (t : Ty) (fs : Fs) (p : List Char) (base : Nat) (mem : Mem) (h : fs p = none) :
    readFile g m th sh t fs p base mem = .error .exn ∧ readMmap g m th sh t fs p base mem = .error .exn := by
  unfold readFile readMmap
  rw [h]
  exact ⟨rfl, rfl⟩

example : readFile demoCfg demoMode 17#64 23#64 demoRoot (fun _ => none) ['x'] 4096 (fun _ => 0#8) = .error .exn :=
  (C84_missing _ _ _ _ _ _ _ _ _ rfl).1

/-- C84: with a checksum, a file of which one byte behind the version word was changed after `write`, or which was cut to at most its header,
is rejected with an exception by `read` and `read_mmap`; on any machine, at any address, for any contents of the rest of memory. -/
theorem C84_damaged {host : Endian} {raw : Bool} {m : Mode} {th sh : HashT} {mem : Mem} {t : Ty} {a : Nat}
    (hs : Source host raw m mem t a) (hcast : Mode.isEnabled m Mode.CAST = false) (hint : Mode.isEnabled m Mode.WITH_INTEGRITY = true)
    (bytes : List Byte) (h : serialize host raw m th sh mem t a = .ok bytes) (fs : Fs) (p : List Char) (b : List Byte) (hp : fs p = some b)
    (hb : (∃ i x, integrityStart m ≤ i ∧ i < bytes.length ∧ bytes[i]? ≠ some x ∧ b = bytes.set i x) ∨ b.length ≤ dataStart m)
    (g : Cfg) (base : Nat) (mem2 : Mem) :
    readFile g m th sh t fs p base mem2 = .error .exn ∧ readMmap g m th sh t fs p base mem2 = .error .exn := by
  obtain ⟨bytes', h1, h2, _⟩ := api_round_trip (th := th) (sh := sh) hs.version hs.integrity hs.wf hs.root hs.live hs.apart
  rw [h] at h1
  injection h1 with h1
  subst h1
  have hc : Hash.check g.host m th sh b = .error .exn := by
    rcases hb with ⟨i, x, hi, hi', hx, rfl⟩ | hb
    · have hbi : bytes[i]? = some bytes[i] := List.getElem?_eq_getElem hi'
      have hsp : bytes = bytes.take i ++ bytes[i] :: bytes.drop (i + 1) := by
        rw [List.getElem_cons_drop, List.take_append_drop]
      have hst : bytes.set i x = bytes.take i ++ x :: bytes.drop (i + 1) := List.set_eq_take_append_cons_drop .. |>.trans (if_pos hi')
      rw [hst]
      refine Hash.C04_corruption_detected g.host m th sh _ _ bytes[i] x (fun h => hx (by rw [hbi, h])) hint ?_ (by rw [← hsp]; exact h2 g.host)
      rw [List.length_take]
      omega
    · unfold Hash.check
      rw [decide_eq_false (by omega)]
      rfl
  have hd : deserialize g m th sh t base b.length (wr mem2 base b) = .error .exn := by
    unfold deserialize
    rw [hcast, if_neg (by decide), rd_wr_same, hc, error_bind]
  unfold readFile readMmap
  rw [hp]
  dsimp only
  rw [hd, error_bind]
  exact ⟨rfl, rfl⟩

/-- The last byte of the demonstration file was changed. -/
example (b : List Byte) (h : serialize .little false demoMode 17#64 23#64 demoMem demoRoot 64 = .ok b) (x : Byte) (hx : b[83]? ≠ some x) :
    readFile demoCfg demoMode 17#64 23#64 demoRoot (fun _ => some (b.set 83 x)) ['a'] 4096 (fun _ => 0#8) = .error .exn := by
  have hl := demo_len
  rw [h] at hl
  have hl : b.length = 84 := hl
  exact (C84_damaged (demo_source demoMode (by decide) (by decide)) (by decide) (by decide) b h (fun _ => some (b.set 83 x)) ['a'] _ rfl
    (Or.inl ⟨83, x, by decide, by omega, hx, rfl⟩) _ _ _).1

/-- Outside of the domain of C84, `read_mmap` with raw pointers: `deserialize` stores the addresses into the read-only mapping, although `read` of the same
file succeeds.  (`raw::unique_ptr<int32_t>`; the overload for non-const containers is chosen, so the `_CONST` assertion of
serialization.h:585-586 does not help.) -/
theorem mmap_raw_violated :
    (match writeFile (fun k => 4096 * k) 4096 .little true Mode.WITH_VERSION 17#64 23#64
        (segs [(64, leBytes 8 80), (72, [1#8]), (80, leBytes 4 7)]) (.uptr (.int 4)) 64 (fun _ => none) ['a'] with
    | .error _ => (0, 0, none)
    | .ok fs =>
      (match readFile ⟨.little, true, false, fun _ => .int 4, 1000, fun _ => 0#64⟩ Mode.WITH_VERSION 17#64 23#64 (.uptr (.int 4)) fs ['a']
          4096 (fun _ => 0#8) with
        | .ok (m, r) => (r, ((ptrAt .little true m r).map fun x => rdN .little m x 4).getD 0,
            (match readMmap ⟨.little, true, false, fun _ => .int 4, 1000, fun _ => 0#64⟩ Mode.WITH_VERSION 17#64 23#64 (.uptr (.int 4)) fs ['a']
              4096 (fun _ => 0#8) with
            | .ok _ => none
            | .error e => some e))
        | .error _ => (0, 0, none))) = (4104, 7, some .ub) := by decide +kernel

end Cista.Ser

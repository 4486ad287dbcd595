import Verif.Ser.Props
import Verif.Misc.MmapVec

/-!
# Serialization into any target

`serialize(Target&, value)` is a template over the target (include/cista/serialization.h:481-523), the component `Ser` treats a target that
is a plain byte memory.  Here the same functions are written for an arbitrary target (`Tgt`: append a block, patch, checksum), and three
targets of the library are given: `buf<std::vector<uint8_t>>`, `buf<mmap>` and `file`.
-/
set_option linter.unusedSimpArgs false
set_option linter.unusedSectionVars false

namespace Cista.Ser

open Cista.Arith (Mode)
open Cista.Target (alignUp)
open Cista.Hash (HashT versionBytes dataStart bufChecksum)

/-! ## Model -/

/-- What serialization.h:68-76, 126-128 require of a target: `write(ptr, size, alignment)`, `write(pos, val)`, `checksum(from)`. -/
structure Tgt (σ : Type) where
  put : σ → List Byte → Nat → Res (σ × Nat)
  patch : σ → Nat → List Byte → Res σ
  sum : σ → Nat → Res (σ × HashT)

/-- serialization.h:57-134 `serialization_context`, see `Ctx`. -/
structure TC (σ : Type) where
  tgt : σ
  offs : List (Nat × Nat)
  rngs : List (Nat × Nat × Nat)
  pend : List (Nat × Nat)

variable {σ : Type}

/-- The tables alone. -/
def TC.tables (c : TC σ) : Ctx := ⟨0, fun _ => 0#8, c.offs, c.rngs, c.pend⟩

/-- serialization.h:68-71. -/
def TC.put (T : Tgt σ) (c : TC σ) (bs : List Byte) (al : Nat) : Res (TC σ × Nat) := do
  let r ← T.put c.tgt bs al
  .ok ({ c with tgt := r.1 }, r.2)

/-- serialization.h:73-76. -/
def TC.patch (T : Tgt σ) (c : TC σ) (pos : Nat) (bs : List Byte) : Res (TC σ) := do
  let s ← T.patch c.tgt pos bs
  .ok { c with tgt := s }

/-- Patch a converted offset. -/
def TC.patchOff (T : Tgt σ) (e : SEnv) (c : TC σ) (pos : Nat) (o : Int) : Res (TC σ) := c.patch T pos (cv e.conv (encI e.host o))

/-- serialization.h:84-109 `resolve_pointer` (`add_pending = true`). -/
def TC.resolvePtr (T : Tgt σ) (e : SEnv) (c : TC σ) (p : Pointee) (x : Option Nat) (pos : Nat) : Res (TC σ) :=
  match p, x with
  | .void, _ => c.patchOff T e pos NULLO
  | _, none => c.patchOff T e pos NULLO
  | _, some x =>
    match resolved c.tables x with
    | some y => c.patchOff T e pos ((y : Int) - pos)
    | none => do
      let c ← c.patchOff T e pos NULLO
      .ok { c with pend := c.pend ++ [(x, pos)] }

/-- serialization.h:145. -/
def TC.regNew (c : TC σ) (x pos : Nat) : TC σ := { c with offs := (Ser.regNew c.tables x pos).offs }

/-- serialization.h:321. -/
def TC.regSet (c : TC σ) (x pos : Nat) : TC σ := { c with offs := (Ser.regSet c.tables x pos).offs }

/-- serialization.h:189. -/
def TC.regRange (c : TC σ) (x start size : Nat) : TC σ := { c with rngs := (Ser.regRange c.tables x start size).rngs }

/-- serialization.h:176-185. -/
def TC.vecHeader (T : Tgt σ) (e : SEnv) (sw a pos : Nat) (start : Option Nat) (c : TC σ) : Res (TC σ) := do
  let c ← c.patchOff T e pos (match start with | none => NULLO | some s => (s : Int) - pos)
  let c ← c.patch T (pos + 8 + sw) (cv e.conv (rd e.mem (a + 8) sw))
  let c ← c.patch T (pos + 8) (cv e.conv (rd e.mem (a + 8) sw))
  c.patch T (pos + 8 + 2 * sw) [0#8]

/-- serialization.h:223-239. -/
def TC.serLong (T : Tgt σ) (e : SEnv) (a pos : Nat) (c : TC σ) : Res (TC σ) :=
  match ptrAt e.host e.raw e.mem (a + 8) with
  | none => do
    let c ← c.patchOff T e (pos + 8) NULLO
    let c ← c.patch T (pos + 4) (cv e.conv (rd e.mem (a + 4) 4))
    c.patch T (pos + 1) [0#8]
  | some d => do
    let r ← c.put T (rd e.mem d (rdN e.host e.mem (a + 4) 4)) 0
    let c ← r.1.patchOff T e (pos + 8) ((r.2 : Int) - 8 - pos)
    let c ← c.patch T (pos + 4) (cv e.conv (rd e.mem (a + 4) 4))
    c.patch T (pos + 1) [0#8]

/-- serialization.h:202-240. -/
def TC.serStr (T : Tgt σ) (e : SEnv) (a pos : Nat) (c : TC σ) : Res (TC σ) :=
  if e.mem a = 1#8 then .ok c
  else if e.mem a = 0#8 then c.serLong T e a pos
  else .error .ub

/-- serialization.h:350-368. -/
def TC.hashHeader (T : Tgt σ) (e : SEnv) (a pos : Nat) (start : Option Nat) (ctrl : Nat) (c : TC σ) : Res (TC σ) := do
  let c ← c.patchOff T e pos (match start with | none => NULLO | some s => (s : Int) - pos)
  let c ← c.patchOff T e (pos + 8) ((ctrl : Int) - 8 - pos)
  let c ← c.patch T (pos + 40) [0#8]
  let c ← c.patch T (pos + 16) (cv e.conv (rd e.mem (a + 16) 8))
  let c ← c.patch T (pos + 24) (cv e.conv (rd e.mem (a + 24) 8))
  c.patch T (pos + 32) (cv e.conv (rd e.mem (a + 32) 8))

/-- serialization.h:137-460 `serialize(c, origin, pos)`, as `ser`. -/
def serT (T : Tgt σ) (e : SEnv) : Ty → (a pos : Nat) → TC σ → Res (TC σ)
  | .int w, a, pos, c => c.patch T pos (cv e.conv (rd e.mem a w))
  | .blob _ _, _, _, c => .ok c
  | .ptr p, a, pos, c => c.resolvePtr T e p (ptrAt e.host e.raw e.mem a) pos
  | .vec sw indexed t, a, pos, c =>
    match ptrAt e.host e.raw e.mem a, rdN e.host e.mem (a + 8) sw with
    | none, 0 => c.vecHeader T e sw a pos none
    | none, _ + 1 => .error .ub
    | some _, 0 => c.vecHeader T e sw a pos none
    | some el, n + 1 => do
      let r ← c.put T (rd e.mem el ((n + 1) * t.sizeof)) t.alignof
      let c ← r.1.vecHeader T e sw a pos (some r.2)
      let c := if indexed then c.regRange el r.2 ((n + 1) * t.sizeof) else c
      forFrom (fun i c => serT T e t (el + i * t.sizeof) (r.2 + i * t.sizeof) c) 0 (n + 1) c
  | .str, a, pos, c => c.serStr T e a pos
  | .uptr t, a, pos, c =>
    match ptrAt e.host e.raw e.mem a with
    | none => do
      let c ← c.patchOff T e pos NULLO
      c.patch T (pos + 8) [0#8]
    | some el => do
      let r ← c.put T (rd e.mem el t.sizeof) t.alignof
      let c ← r.1.patchOff T e pos ((r.2 : Int) - pos)
      let c ← c.patch T (pos + 8) [0#8]
      serT T e t el r.2 (c.regSet el r.2)
  | .hash t, a, pos, c =>
    match ptrAt e.host e.raw e.mem a with
    | none => do
      let r ← c.put T emptyGroup 1
      r.1.hashHeader T e a pos none r.2
    | some el => do
      let r ← c.put T (rd e.mem el (rdN e.host e.mem (a + 24) 8 * t.sizeof + (rdN e.host e.mem (a + 24) 8 + 1 + 8))) t.alignof
      let c ← r.1.hashHeader T e a pos (some r.2) (r.2 + rdN e.host e.mem (a + 24) 8 * t.sizeof)
      match ptrAt e.host e.raw e.mem (a + 8) with
      | none => .error .ub
      | some ct =>
        forFrom (fun i c =>
          if HS.isFull (e.mem (ct + i)).toNat then serT T e t (el + i * t.sizeof) (r.2 + i * t.sizeof) c else .ok c)
          0 (rdN e.host e.mem (a + 24) 8) c
  | .opt t, a, pos, c =>
    if e.mem a = 1#8 then serT T e t (a + t.alignof) (pos + t.alignof) c
    else if e.mem a = 0#8 then .ok c
    else .error .ub
  | .var ib so _ _ n t, a, pos, c => do
    let c ← c.patch T pos (cv e.conv (rd e.mem a ib))
    if h : rdN e.host e.mem a ib < n then serT T e (t ⟨rdN e.host e.mem a ib, h⟩) (a + so) (pos + so) c
    else .error .exn
  | .arr n t, a, pos, c => forFrom (fun i c => serT T e t (a + i * t.sizeof) (pos + i * t.sizeof) c) 0 n c
  | .idx t, a, pos, c => serT T e t a pos (c.regNew a pos)
  | .agg _ _ n off t, a, pos, c =>
    forFrom (fun i c => if h : i < n then serT T e (t ⟨i, h⟩) (a + off ⟨i, h⟩) (pos + off ⟨i, h⟩) c else .ok c) 0 n c

/-- serialization.h:511-516. -/
def TC.resolvePending (T : Tgt σ) (e : SEnv) : List (Nat × Nat) → TC σ → Res (TC σ)
  | [], c => .ok c
  | (x, pos) :: ps, c =>
    match resolved c.tables x with
    | some y => do
      let c ← c.patchOff T e pos ((y : Int) - pos)
      TC.resolvePending T e ps c
    | none => TC.resolvePending T e ps c

/-- serialization.h:485-499: the version word, if the mode asks for one. -/
def TC.putVersion (T : Tgt σ) (v : List Byte) (c : TC σ) : Res (TC σ) :=
  if v.isEmpty then .ok c else do
    let r ← c.put T v 0
    .ok r.1

/-- serialization.h:501-505: the placeholder of the checksum and its position. -/
def TC.putIntegrity (T : Tgt σ) (m : Mode) (c : TC σ) : Res (TC σ × Nat) :=
  if Mode.isEnabled m Mode.WITH_INTEGRITY then c.put T (List.replicate 8 0#8) 0 else .ok (c, 0)

/-- serialization.h:481-523 `serialize<Mode>(target, value)`: the version word and the placeholder of the checksum are blocks of their
own.  `s` is the target before. -/
def serializeT (T : Tgt σ) (host : Endian) (raw : Bool) (m : Mode) (th sh : HashT) (mem : Mem) (t : Ty) (a : Nat) (s : σ) : Res σ := do
  let e : SEnv := ⟨host, conversionNecessary host m, raw, mem⟩
  let c : TC σ := ⟨s, [], [], []⟩
  let c ← c.putVersion T (versionBytes host m th sh)
  let i ← c.putIntegrity T m
  let r ← i.1.put T (rd mem a t.sizeof) t.alignof
  let c ← serT T e t a r.2 r.1
  let c ← c.resolvePending T e c.pend
  if Mode.isEnabled m Mode.WITH_INTEGRITY then do
    let h ← T.sum c.tgt (i.2 + 8)
    let c ← { c with tgt := h.1 }.patch T i.2 (hostBytes host 8 (convertEndian host m 8 h.2.toNat))
    .ok c.tgt
  else .ok c.tgt

/-! ### Targets -/

/-- targets/buf.h with `std::vector<uint8_t>`: the bytes and the number of calls so far; `bases k` is the address of the storage
during call `k`. -/
def bufT (bases : Nat → Nat) : Tgt (List Byte × Nat) where
  put s bs al := do
    let r ← Target.bufWrite (bases s.2) s.1 bs al
    .ok ((r.1, s.2 + 1), r.2)
  patch s pos bs := do
    let b ← Target.bufPatch s.1 pos bs
    .ok (b, s.2 + 1)
  sum s start := do
    let h ← bufChecksum s.1 start
    .ok (s, h)

/-- targets/file.h (POSIX) with `block` bytes per block of the checksum. -/
def fileT (block : Nat) : Tgt Target.File where
  put f bs al := .ok (Target.fileWrite f bs al)
  patch f pos bs := .ok (Target.filePatch f pos bs)
  sum f start := do
    let h ← Hash.fileChecksum block f.content f.size start
    .ok (f, h)

/-- targets/buf.h:53-59 with a mapped file: room for `n` bytes from `start`. -/
def mmapGrow (st : MmapVec.St) (start n : Nat) : Res MmapVec.St :=
  let space : Int := (st.used : Int) - (start : Int)
  if space < (n : Int) then MmapVec.mmapResize st (st.used + ((n : Int) - space).toNat) else .ok st

/-- targets/buf.h:39-63 with a mapped file at address `base`, which changes with every `resize_map` (mmap.h:196-205); before the first one
(empty file) there is no mapping.  `memcpy` to a place outside of the mapping is undefined. -/
def mmapWrite (base : Nat) (st : MmapVec.St) (bs : List Byte) (al : Nat) : Res (MmapVec.St × Nat) := do
  let start := if al > 1 ∧ st.used ≠ 0 then alignUp (base + st.used) al - base else st.used
  let st ← mmapGrow st start bs.length
  require (st.mapped && decide (start + bs.length ≤ st.size))
  .ok ({ st with file := Target.overwrite st.file start bs }, start)

/-- targets/buf.h with `mmap`. -/
def mmapT (bases : Nat → Nat) : Tgt (MmapVec.St × Nat) where
  put s bs al := do
    let r ← mmapWrite (bases s.2) s.1 bs al
    .ok ((r.1, s.2 + 1), r.2)
  patch s pos bs := do
    verify (decide (pos + bs.length ≤ s.1.used))
    .ok ({ s.1 with file := Target.overwrite s.1.file pos bs }, s.2 + 1)
  sum s start := do
    let h ← bufChecksum (s.1.file.take s.1.used) start
    .ok (s, h)

/-! ## Simulation -/

/-- The target does what `put`, `patch` and the checksum of the byte memory do, for alignments that divide `M` and up to `B` bytes;
`R` relates its states to length and contents. -/
structure Tgt.Does (T : Tgt σ) (R : σ → Nat → Mem → Prop) (M B : Nat) : Prop where
  put : ∀ {s len buf bs al}, R s len buf → (∀ x, len ≤ x → buf x = 0#8) → (al ≤ 1 ∨ al ∣ M) → (bs ≠ [] ∨ (al ≤ 1 ∧ 0 < len)) →
    (if al > 1 then alignUp len al else len) + bs.length ≤ B →
    ∃ s', T.put s bs al = .ok (s', if al > 1 then alignUp len al else len) ∧
      R s' ((if al > 1 then alignUp len al else len) + bs.length) (wr buf (if al > 1 then alignUp len al else len) bs)
  patch : ∀ {s len buf pos bs}, R s len buf → (∀ x, len ≤ x → buf x = 0#8) → pos + bs.length ≤ len →
    ∃ s', T.patch s pos bs = .ok s' ∧ R s' len (wr buf pos bs)
  sum : ∀ {s len buf start h}, R s len buf → start < len → bufChecksum (rd buf 0 len) start = .ok h →
    ∃ s', T.sum s start = .ok (s', h) ∧ R s' len buf

/-- The same for a target each of whose operations may, instead, end with an error of `E`. -/
structure Tgt.May (T : Tgt σ) (R : σ → Nat → Mem → Prop) (E : Err → Prop) (M B : Nat) : Prop where
  put : ∀ {s len buf bs al}, R s len buf → (∀ x, len ≤ x → buf x = 0#8) → (al ≤ 1 ∨ al ∣ M) → (bs ≠ [] ∨ (al ≤ 1 ∧ 0 < len)) →
    (if al > 1 then alignUp len al else len) + bs.length ≤ B →
    (∃ z, T.put s bs al = .error z ∧ E z) ∨ ∃ s', T.put s bs al = .ok (s', if al > 1 then alignUp len al else len) ∧
      R s' ((if al > 1 then alignUp len al else len) + bs.length) (wr buf (if al > 1 then alignUp len al else len) bs)
  patch : ∀ {s len buf pos bs}, R s len buf → (∀ x, len ≤ x → buf x = 0#8) → pos + bs.length ≤ len →
    (∃ z, T.patch s pos bs = .error z ∧ E z) ∨ ∃ s', T.patch s pos bs = .ok s' ∧ R s' len (wr buf pos bs)
  sum : ∀ {s len buf start h}, R s len buf → start < len → bufChecksum (rd buf 0 len) start = .ok h →
    (∃ z, T.sum s start = .error z ∧ E z) ∨ ∃ s', T.sum s start = .ok (s', h) ∧ R s' len buf

theorem Tgt.Does.may {T : Tgt σ} {R : σ → Nat → Mem → Prop} {M B : Nat} (h : T.Does R M B) : T.May R (fun _ => False) M B :=
  ⟨fun r z a n b => .inr (h.put r z a n b), fun r z p => .inr (h.patch r z p), fun r s e => .inr (h.sum r s e)⟩

/-- States that belong together. -/
structure SRel (R : σ → Nat → Mem → Prop) (t : TC σ) (c : Ctx) : Prop where
  tgt : R t.tgt c.len c.buf
  zero : ∀ x, c.len ≤ x → c.buf x = 0#8
  pos : 0 < c.len
  offs : t.offs = c.offs
  rngs : t.rngs = c.rngs
  pend : t.pend = c.pend

def Grow (c : Ctx) (y : Res Ctx) : Prop := ∀ c', y = .ok c' → c.len ≤ c'.len

def Sim (R : σ → Nat → Mem → Prop) (E : Err → Prop) (B : Nat) (x : Res (TC σ)) (y : Res Ctx) : Prop :=
  ∀ c', y = .ok c' → c'.len ≤ B → (∃ z, x = .error z ∧ E z) ∨ ∃ t', x = .ok t' ∧ SRel R t' c'

theorem Grow.ok {c c' : Ctx} (h : c.len ≤ c'.len) : Grow c (.ok c') := by
  intro c'' e
  injection e with e
  rw [← e]
  exact h

theorem Grow.err {c : Ctx} (x : Err) : Grow c (.error x) := fun _ h => by cases h

theorem Grow.bind {c : Ctx} {y : Res Ctx} {g : Ctx → Res Ctx} (h : Grow c y) (hg : ∀ c, Grow c (g c)) : Grow c (y >>= g) := by
  intro c' e
  cases y with
  | error x => rw [error_bind] at e; cases e
  | ok c1 =>
    rw [ok_bind] at e
    exact Nat.le_trans (h c1 rfl) (hg c1 c' e)

theorem Grow.forFrom {f : Nat → Ctx → Res Ctx} (h : ∀ i c, Grow c (f i c)) : ∀ k i c, Grow c (forFrom f i k c)
  | 0, _, c => .ok (Nat.le_refl _)
  | k + 1, i, c => by
    rw [forFrom_succ]
    exact (h i c).bind fun c => Grow.forFrom h k (i + 1) c

theorem Grow.patch (c : Ctx) (pos : Nat) (bs : List Byte) : Grow c (patch c pos bs) := by
  intro c' h
  unfold Ser.patch at h
  by_cases hp : pos + bs.length ≤ c.len
  · rw [decide_eq_true hp, verify_true, ok_bind] at h
    injection h with h
    rw [← h]
    exact Nat.le_refl _
  · rw [decide_eq_false hp] at h
    cases h

theorem Grow.patchOff (e : SEnv) (c : Ctx) (pos : Nat) (o : Int) : Grow c (patchOff e c pos o) := Grow.patch _ _ _

theorem put_grow (c : Ctx) (bs : List Byte) (al : Nat) : c.len ≤ (put c bs al).1.len :=
  Nat.le_trans (put_pos_le c bs al) (Nat.le_add_right _ _)

theorem Grow.of {c c1 : Ctx} {y : Res Ctx} (h : Grow c1 y) (hl : c.len ≤ c1.len) : Grow c y :=
  fun c' e => Nat.le_trans hl (h c' e)

theorem Grow.vecHeader (e : SEnv) (sw a pos : Nat) (s : Option Nat) (c : Ctx) : Grow c (vecHeader e sw a pos s c) :=
  (Grow.patchOff _ _ _ _).bind fun _ => (Grow.patch _ _ _).bind fun _ => (Grow.patch _ _ _).bind fun _ => Grow.patch _ _ _

theorem Grow.hashHeader (e : SEnv) (a pos : Nat) (s : Option Nat) (ct : Nat) (c : Ctx) : Grow c (hashHeader e a pos s ct c) :=
  (Grow.patchOff _ _ _ _).bind fun _ => (Grow.patchOff _ _ _ _).bind fun _ => (Grow.patch _ _ _).bind fun _ =>
    (Grow.patch _ _ _).bind fun _ => (Grow.patch _ _ _).bind fun _ => Grow.patch _ _ _

theorem Grow.resolvePtr (e : SEnv) (c : Ctx) (p : Pointee) (x : Option Nat) (pos : Nat) : Grow c (resolvePtr e c p x pos) := by
  unfold Ser.resolvePtr
  cases p with
  | void => exact Grow.patchOff _ _ _ _
  | obj n =>
    cases x with
    | none => exact Grow.patchOff _ _ _ _
    | some x =>
      dsimp only
      cases resolved c x with
      | some y => exact Grow.patchOff _ _ _ _
      | none => exact (Grow.patchOff _ _ _ _).bind fun c => Grow.ok (Nat.le_refl _)

theorem Grow.serStr (e : SEnv) (a pos : Nat) (c : Ctx) : Grow c (serStr e a pos c) := by
  unfold Ser.serStr
  split
  · exact .ok (Nat.le_refl _)
  · split
    · unfold Ser.serLong
      cases ptrAt e.host e.raw e.mem (a + 8) with
      | none => exact (Grow.patchOff _ _ _ _).bind fun _ => (Grow.patch _ _ _).bind fun _ => Grow.patch _ _ _
      | some d =>
        exact ((Grow.patchOff _ _ _ _).of (put_grow c _ _)).bind fun _ => (Grow.patch _ _ _).bind fun _ => Grow.patch _ _ _
    · exact .err _

theorem Grow.ser (e : SEnv) : ∀ (t : Ty) (a pos : Nat) (c : Ctx), Grow c (ser e t a pos c)
  | .int w, a, pos, c => by unfold Ser.ser; exact Grow.patch _ _ _
  | .blob _ _, _, _, c => by unfold Ser.ser; exact .ok (Nat.le_refl _)
  | .ptr p, a, pos, c => by unfold Ser.ser; exact Grow.resolvePtr _ _ _ _ _
  | .vec sw ix t, a, pos, c => by
    unfold Ser.ser
    cases ptrAt e.host e.raw e.mem a with
    | none =>
      cases rdN e.host e.mem (a + 8) sw with
      | zero => exact Grow.vecHeader _ _ _ _ _ _
      | succ n => exact .err _
    | some el =>
      cases rdN e.host e.mem (a + 8) sw with
      | zero => exact Grow.vecHeader _ _ _ _ _ _
      | succ n =>
        refine ((Grow.vecHeader _ _ _ _ _ _).of (put_grow c _ _)).bind fun c => ?_
        refine (Grow.forFrom (fun i c => Grow.ser e t _ _ c) _ _ _).of ?_
        cases ix with
        | false => exact Nat.le_refl _
        | true =>
          show c.len ≤ (regRange c _ _ _).len
          unfold regRange
          split <;> exact Nat.le_refl _
  | .str, a, pos, c => by unfold Ser.ser; exact Grow.serStr _ _ _ _
  | .uptr t, a, pos, c => by
    unfold Ser.ser
    cases ptrAt e.host e.raw e.mem a with
    | none => exact (Grow.patchOff _ _ _ _).bind fun _ => Grow.patch _ _ _
    | some el =>
      exact ((Grow.patchOff _ _ _ _).of (put_grow c _ _)).bind fun _ => (Grow.patch _ _ _).bind fun c =>
        (Grow.ser e t _ _ _).of (Nat.le_refl _)
  | .hash t, a, pos, c => by
    unfold Ser.ser
    cases ptrAt e.host e.raw e.mem a with
    | none => exact (Grow.hashHeader _ _ _ _ _ _).of (put_grow c _ _)
    | some el =>
      refine ((Grow.hashHeader _ _ _ _ _ _).of (put_grow c _ _)).bind fun c => ?_
      cases ptrAt e.host e.raw e.mem (a + 8) with
      | none => exact .err _
      | some ct =>
        refine Grow.forFrom (fun i c => ?_) _ _ _
        split
        · exact Grow.ser e t _ _ _
        · exact .ok (Nat.le_refl _)
  | .opt t, a, pos, c => by
    unfold Ser.ser
    split
    · exact Grow.ser e t _ _ _
    · split
      · exact .ok (Nat.le_refl _)
      · exact .err _
  | .var ib so s al n t, a, pos, c => by
    unfold Ser.ser
    refine (Grow.patch _ _ _).bind fun c => ?_
    split
    · exact Grow.ser e (t _) _ _ _
    · exact .err _
  | .arr n t, a, pos, c => by
    unfold Ser.ser
    exact Grow.forFrom (fun i c => Grow.ser e t _ _ c) _ _ _
  | .idx t, a, pos, c => by
    unfold Ser.ser
    refine (Grow.ser e t _ _ _).of ?_
    unfold regNew
    cases findOff a c.offs <;> exact Nat.le_refl _
  | .agg s al n off t, a, pos, c => by
    unfold Ser.ser
    refine Grow.forFrom (fun i c => ?_) _ _ _
    split
    · exact Grow.ser e (t _) _ _ _
    · exact .ok (Nat.le_refl _)

theorem Grow.resolvePending (e : SEnv) : ∀ (ps : List (Nat × Nat)) (c : Ctx), Grow c (resolvePending e ps c)
  | [], c => .ok (Nat.le_refl _)
  | (x, pos) :: ps, c => by
    unfold Ser.resolvePending
    cases resolved c x with
    | some y => exact (Grow.patchOff _ _ _ _).bind fun c => Grow.resolvePending e ps c
    | none => exact Grow.resolvePending e ps c

section
variable {R : σ → Nat → Mem → Prop} {E : Err → Prop} {M B : Nat} {T : Tgt σ}

theorem Sim.ok {t : TC σ} {c : Ctx} (h : SRel R t c) : Sim R E B (.ok t) (.ok c) := by
  intro c' e _
  injection e with e
  exact .inr ⟨t, rfl, e ▸ h⟩

theorem Sim.err {x : Res (TC σ)} (z : Err) : Sim R E B x (.error z) := fun _ h => by cases h

theorem Sim.bind {x : Res (TC σ)} {y : Res Ctx} {f : TC σ → Res (TC σ)} {g : Ctx → Res Ctx} (h : Sim R E B x y) (hg : ∀ c, Grow c (g c))
    (hf : ∀ t c, SRel R t c → Sim R E B (f t) (g c)) : Sim R E B (x >>= f) (y >>= g) := by
  intro c' e hB
  cases y with
  | error x => rw [error_bind] at e; cases e
  | ok c1 =>
    rw [ok_bind] at e
    rcases h c1 rfl (Nat.le_trans (hg c1 c' e) hB) with ⟨z, e1, hz⟩ | ⟨t1, e1, r1⟩
    · exact .inl ⟨z, by rw [e1, error_bind], hz⟩
    rw [e1, ok_bind]
    exact hf t1 c1 r1 c' e hB

theorem Sim.forFrom {f : Nat → TC σ → Res (TC σ)} {g : Nat → Ctx → Res Ctx} (hg : ∀ i c, Grow c (g i c))
    (h : ∀ i t c, SRel R t c → Sim R E B (f i t) (g i c)) : ∀ k i t c, SRel R t c → Sim R E B (forFrom f i k t) (forFrom g i k c)
  | 0, _, _, _, r => .ok r
  | k + 1, i, t, c, r => by
    rw [forFrom_succ, forFrom_succ]
    exact (h i t c r).bind (fun c => Grow.forFrom hg k (i + 1) c) fun t c r => Sim.forFrom hg h k (i + 1) t c r

variable (hT : T.May R E M B)
include hT

theorem Sim.patch {t : TC σ} {c : Ctx} (r : SRel R t c) (pos : Nat) (bs : List Byte) : Sim R E B (t.patch T pos bs) (patch c pos bs) := by
  intro c' h hB
  unfold Ser.patch at h
  by_cases hp : pos + bs.length ≤ c.len
  · rw [decide_eq_true hp, verify_true, ok_bind] at h
    injection h with h
    subst h
    rcases hT.patch r.tgt r.zero hp with ⟨z, e1, hz⟩ | ⟨s', e1, r1⟩
    · exact .inl ⟨z, by unfold TC.patch; rw [e1, error_bind], hz⟩
    refine .inr ⟨{ t with tgt := s' }, ?_, r1, fun x hx => ?_, r.pos, r.offs, r.rngs, r.pend⟩
    · unfold TC.patch
      rw [e1, ok_bind]
    · have hx : c.len ≤ x := hx
      show wr c.buf pos bs x = 0#8
      rw [wr_out (by omega)]
      exact r.zero x hx
  · rw [decide_eq_false hp] at h
    cases h

theorem Sim.patchOff {e : SEnv} {t : TC σ} {c : Ctx} (r : SRel R t c) (pos : Nat) (o : Int) :
    Sim R E B (t.patchOff T e pos o) (patchOff e c pos o) := Sim.patch hT r _ _

/-- A block, and what follows. -/
theorem Sim.put {t : TC σ} {c : Ctx} (r : SRel R t c) {bs : List Byte} {al : Nat} (hal : al ≤ 1 ∨ al ∣ M) (hb : bs ≠ [] ∨ al ≤ 1)
    {f : TC σ × Nat → Res (TC σ)} {g : Ctx → Nat → Res Ctx} (hg : ∀ c p, Grow c (g c p))
    (hf : ∀ t c p, SRel R t c → Sim R E B (f (t, p)) (g c p)) : Sim R E B (t.put T bs al >>= f) (g (Ser.put c bs al).1 (Ser.put c bs al).2) := by
  intro c' e hB
  have hl : (Ser.put c bs al).1.len ≤ B := Nat.le_trans (hg _ _ _ e) hB
  rcases hT.put (bs := bs) r.tgt r.zero hal (hb.imp_right fun h => ⟨h, r.pos⟩) hl with ⟨z, e1, hz⟩ | ⟨s', e1, r1⟩
  · exact .inl ⟨z, by unfold TC.put; rw [e1, error_bind, error_bind], hz⟩
  have hr : SRel R { t with tgt := s' } (Ser.put c bs al).1 := by
    refine ⟨r1, fun x hx => ?_, Nat.lt_of_lt_of_le r.pos (put_grow c bs al), r.offs, r.rngs, r.pend⟩
    have hx : (Ser.put c bs al).2 + bs.length ≤ x := hx
    have := put_pos_le c bs al
    show wr c.buf (Ser.put c bs al).2 bs x = 0#8
    rw [wr_out (by omega)]
    exact r.zero x (by omega)
  have hp : t.put T bs al = .ok ({ t with tgt := s' }, (Ser.put c bs al).2) := by
    unfold TC.put
    rw [e1, ok_bind]
    rfl
  rw [hp, ok_bind]
  exact hf _ _ _ hr c' e hB

omit hT in
theorem SRel.tables {t : TC σ} {c : Ctx} (r : SRel R t c) (x : Nat) : resolved t.tables x = resolved c x := by
  unfold resolved resolveRange TC.tables
  rw [r.offs, r.rngs]

omit hT in
theorem SRel.regNew {t : TC σ} {c : Ctx} (r : SRel R t c) (x pos : Nat) : SRel R (t.regNew x pos) (regNew c x pos) := by
  have h : (Ser.regNew t.tables x pos).offs = (Ser.regNew c x pos).offs := by
    unfold Ser.regNew TC.tables
    rw [r.offs]
    cases findOff x c.offs <;> rfl
  have h' : Ser.regNew c x pos = { c with offs := (Ser.regNew c x pos).offs } := by
    unfold Ser.regNew
    cases findOff x c.offs <;> rfl
  rw [h']
  exact ⟨r.tgt, r.zero, r.pos, h, r.rngs, r.pend⟩

omit hT in
theorem SRel.regSet {t : TC σ} {c : Ctx} (r : SRel R t c) (x pos : Nat) : SRel R (t.regSet x pos) (regSet c x pos) :=
  ⟨r.tgt, r.zero, r.pos, by show (x, pos) :: t.offs = (x, pos) :: c.offs; rw [r.offs], r.rngs, r.pend⟩

omit hT in
theorem SRel.regRange {t : TC σ} {c : Ctx} (r : SRel R t c) (x s n : Nat) : SRel R (t.regRange x s n) (regRange c x s n) := by
  have h : (Ser.regRange t.tables x s n).rngs = (Ser.regRange c x s n).rngs := by
    unfold Ser.regRange TC.tables
    dsimp only
    rw [r.rngs]
    split <;> rfl
  have h' : Ser.regRange c x s n = { c with rngs := (Ser.regRange c x s n).rngs } := by
    unfold Ser.regRange
    split <;> rfl
  rw [h']
  exact ⟨r.tgt, r.zero, r.pos, r.offs, h, r.pend⟩

theorem Sim.vecHeader {e : SEnv} {sw a pos : Nat} {s : Option Nat} {t : TC σ} {c : Ctx} (r : SRel R t c) :
    Sim R E B (t.vecHeader T e sw a pos s) (vecHeader e sw a pos s c) :=
  (Sim.patchOff hT r _ _).bind (fun _ => (Grow.patch _ _ _).bind fun _ => (Grow.patch _ _ _).bind fun _ => Grow.patch _ _ _) fun _ _ r =>
  (Sim.patch hT r _ _).bind (fun _ => (Grow.patch _ _ _).bind fun _ => Grow.patch _ _ _) fun _ _ r =>
  (Sim.patch hT r _ _).bind (fun _ => Grow.patch _ _ _) fun _ _ r => Sim.patch hT r _ _

theorem Sim.hashHeader {e : SEnv} {a pos ct : Nat} {s : Option Nat} {t : TC σ} {c : Ctx} (r : SRel R t c) :
    Sim R E B (t.hashHeader T e a pos s ct) (hashHeader e a pos s ct c) :=
  (Sim.patchOff hT r _ _).bind (fun _ => (Grow.patchOff _ _ _ _).bind fun _ => (Grow.patch _ _ _).bind fun _ =>
    (Grow.patch _ _ _).bind fun _ => (Grow.patch _ _ _).bind fun _ => Grow.patch _ _ _) fun _ _ r =>
  (Sim.patchOff hT r _ _).bind (fun _ => (Grow.patch _ _ _).bind fun _ =>
    (Grow.patch _ _ _).bind fun _ => (Grow.patch _ _ _).bind fun _ => Grow.patch _ _ _) fun _ _ r =>
  (Sim.patch hT r _ _).bind (fun _ => (Grow.patch _ _ _).bind fun _ => (Grow.patch _ _ _).bind fun _ => Grow.patch _ _ _) fun _ _ r =>
  (Sim.patch hT r _ _).bind (fun _ => (Grow.patch _ _ _).bind fun _ => Grow.patch _ _ _) fun _ _ r =>
  (Sim.patch hT r _ _).bind (fun _ => Grow.patch _ _ _) fun _ _ r => Sim.patch hT r _ _

theorem Sim.resolvePtr {e : SEnv} {p : Pointee} {x : Option Nat} {pos : Nat} {t : TC σ} {c : Ctx} (r : SRel R t c) :
    Sim R E B (t.resolvePtr T e p x pos) (resolvePtr e c p x pos) := by
  unfold Ser.resolvePtr TC.resolvePtr
  cases p with
  | void => exact Sim.patchOff hT r _ _
  | obj n =>
    cases x with
    | none => exact Sim.patchOff hT r _ _
    | some x =>
      dsimp only
      rw [r.tables]
      cases resolved c x with
      | some y => exact Sim.patchOff hT r _ _
      | none =>
        refine (Sim.patchOff hT r _ _).bind (fun c => Grow.ok (Nat.le_refl _)) fun t c r => .ok ?_
        exact ⟨r.tgt, r.zero, r.pos, r.offs, r.rngs, by show t.pend ++ _ = c.pend ++ _; rw [r.pend]⟩

theorem Sim.serStr {e : SEnv} {a pos : Nat} {t : TC σ} {c : Ctx} (r : SRel R t c) : Sim R E B (t.serStr T e a pos) (serStr e a pos c) := by
  unfold Ser.serStr TC.serStr
  split
  · exact .ok r
  · split
    · unfold Ser.serLong TC.serLong
      cases ptrAt e.host e.raw e.mem (a + 8) with
      | none =>
        exact (Sim.patchOff hT r _ _).bind (fun _ => (Grow.patch _ _ _).bind fun _ => Grow.patch _ _ _) fun _ _ r =>
          (Sim.patch hT r _ _).bind (fun _ => Grow.patch _ _ _) fun _ _ r => Sim.patch hT r _ _
      | some d =>
        refine Sim.put hT r (Or.inl (by decide)) (Or.inr (by decide))
          (g := fun c p => do
            let c ← Ser.patchOff e c (pos + 8) ((p : Int) - 8 - pos)
            let c ← Ser.patch c (pos + 4) (cv e.conv (rd e.mem (a + 4) 4))
            Ser.patch c (pos + 1) [0#8])
          (fun c p => (Grow.patchOff _ _ _ _).bind fun _ => (Grow.patch _ _ _).bind fun _ => Grow.patch _ _ _) fun t c p r => ?_
        · exact (Sim.patchOff hT r _ _).bind (fun _ => (Grow.patch _ _ _).bind fun _ => Grow.patch _ _ _) fun _ _ r =>
            (Sim.patch hT r _ _).bind (fun _ => Grow.patch _ _ _) fun _ _ r => Sim.patch hT r _ _
    · exact .err _

theorem Sim.ser {e : SEnv} : ∀ (ty : Ty), ty.WF → ty.Al M → ∀ (a pos : Nat) (t : TC σ) (c : Ctx), SRel R t c →
    Sim R E B (serT T e ty a pos t) (ser e ty a pos c)
  | .int w, _, _, a, pos, t, c, r => by unfold Ser.ser serT; exact Sim.patch hT r _ _
  | .blob _ _, _, _, _, _, t, c, r => by unfold Ser.ser serT; exact .ok r
  | .ptr p, _, _, a, pos, t, c, r => by unfold Ser.ser serT; exact Sim.resolvePtr hT r
  | .vec sw ix u, hw, ha, a, pos, t, c, r => by
    unfold Ser.ser serT
    cases ptrAt e.host e.raw e.mem a with
    | none =>
      cases rdN e.host e.mem (a + 8) sw with
      | zero => exact Sim.vecHeader hT r
      | succ n => exact .err _
    | some el =>
      cases rdN e.host e.mem (a + 8) sw with
      | zero => exact Sim.vecHeader hT r
      | succ n =>
        have hp := (Ty.pos_of_WF hw.2).2.1
        have hgf : ∀ k (c : Ctx) i, Grow c (Ser.forFrom (fun i c => Ser.ser e u (el + i * u.sizeof) (k + i * u.sizeof) c) i (n + 1) c) :=
          fun k c i => Grow.forFrom (fun i c => Grow.ser e u _ _ c) _ _ _
        have hgr : ∀ (c : Ctx) k, c.len ≤ (if ix then Ser.regRange c el k ((n + 1) * u.sizeof) else c).len := by
          intro c k
          cases ix with
          | false => exact Nat.le_refl _
          | true =>
            show c.len ≤ (Ser.regRange c _ _ _).len
            unfold Ser.regRange
            split <;> exact Nat.le_refl _
        refine Sim.put hT r (Or.inr ha.2.dvd) (Or.inl ?_)
          (g := fun c p => do
            let c ← Ser.vecHeader e sw a pos (some p) c
            let c := if ix then Ser.regRange c el p ((n + 1) * u.sizeof) else c
            Ser.forFrom (fun i c => Ser.ser e u (el + i * u.sizeof) (p + i * u.sizeof) c) 0 (n + 1) c)
          (fun c p => (Grow.vecHeader _ _ _ _ _ _).bind fun c => (hgf p _ 0).of (hgr c p)) fun t c p r => ?_
        · intro h
          have := congrArg List.length h
          rw [length_rd, List.length_nil] at this
          have h' : 0 < (n + 1) * u.sizeof := Nat.mul_pos (by omega) hp
          omega
        · refine (Sim.vecHeader hT r).bind (fun c => (hgf p _ 0).of (hgr c p)) fun t c r => ?_
          refine Sim.forFrom (fun i c => Grow.ser e u (el + i * u.sizeof) (p + i * u.sizeof) c)
            (fun i t c r => Sim.ser u hw.2 ha.2 (el + i * u.sizeof) (p + i * u.sizeof) t c r) _ _ _ _ ?_
          cases ix with
          | false => exact r
          | true => exact r.regRange _ _ _
  | .str, _, _, a, pos, t, c, r => by unfold Ser.ser serT; exact Sim.serStr hT r
  | .uptr u, hw, ha, a, pos, t, c, r => by
    unfold Ser.ser serT
    cases ptrAt e.host e.raw e.mem a with
    | none => exact (Sim.patchOff hT r _ _).bind (fun _ => Grow.patch _ _ _) fun _ _ r => Sim.patch hT r _ _
    | some el =>
      have hp := (Ty.pos_of_WF (show u.WF from hw)).2.1
      refine Sim.put hT r (Or.inr ha.2.dvd) (Or.inl ?_)
        (g := fun c p => do
          let c ← Ser.patchOff e c pos ((p : Int) - pos)
          let c ← Ser.patch c (pos + 8) [0#8]
          Ser.ser e u el p (Ser.regSet c el p))
        (fun c p => (Grow.patchOff _ _ _ _).bind fun _ => (Grow.patch _ _ _).bind fun c => (Grow.ser e u _ _ _).of (Nat.le_refl _))
        fun t c p r => ?_
      · intro h
        have := congrArg List.length h
        rw [length_rd, List.length_nil] at this
        omega
      · exact (Sim.patchOff hT r _ _).bind (fun _ => (Grow.patch _ _ _).bind fun c => (Grow.ser e u _ _ _).of (Nat.le_refl _)) fun _ _ r =>
          (Sim.patch hT r _ _).bind (fun c => (Grow.ser e u _ _ _).of (Nat.le_refl _)) fun _ _ r =>
            Sim.ser u hw ha.2 _ _ _ _ (r.regSet _ _)
  | .hash u, hw, ha, a, pos, t, c, r => by
    unfold Ser.ser serT
    cases ptrAt e.host e.raw e.mem a with
    | none =>
      exact Sim.put hT r (Or.inl (by decide)) (Or.inr (by decide)) (g := fun c p => Ser.hashHeader e a pos none p c)
        (fun c p => Grow.hashHeader _ _ _ _ _ _) fun t c p r => Sim.hashHeader hT r
    | some el =>
      have hgf : ∀ p (c : Ctx), Grow c (match ptrAt e.host e.raw e.mem (a + 8) with
          | none => .error .ub
          | some ct =>
            Ser.forFrom (fun i c =>
              if HS.isFull (e.mem (ct + i)).toNat then Ser.ser e u (el + i * u.sizeof) (p + i * u.sizeof) c else .ok c)
              0 (rdN e.host e.mem (a + 24) 8) c) := by
        intro p c
        cases ptrAt e.host e.raw e.mem (a + 8) with
        | none => exact .err _
        | some ct =>
          refine Grow.forFrom (fun i c => ?_) _ _ _
          split
          · exact Grow.ser e u _ _ _
          · exact .ok (Nat.le_refl _)
      refine Sim.put hT r (Or.inr ha.2.dvd) (Or.inl ?_)
        (g := fun c p => do
          let c ← Ser.hashHeader e a pos (some p) (p + rdN e.host e.mem (a + 24) 8 * u.sizeof) c
          match ptrAt e.host e.raw e.mem (a + 8) with
          | none => .error .ub
          | some ct =>
            Ser.forFrom (fun i c =>
              if HS.isFull (e.mem (ct + i)).toNat then Ser.ser e u (el + i * u.sizeof) (p + i * u.sizeof) c else .ok c)
              0 (rdN e.host e.mem (a + 24) 8) c)
        (fun c p => (Grow.hashHeader _ _ _ _ _ _).bind fun c => hgf p c) fun t c p r => ?_
      · intro h
        have := congrArg List.length h
        rw [length_rd] at this
        simp at this
      · refine (Sim.hashHeader hT r).bind (hgf p) fun t c r => ?_
        cases ptrAt e.host e.raw e.mem (a + 8) with
        | none => exact .err _
        | some ct =>
          refine Sim.forFrom (fun i c => ?_) (fun i t c r => ?_) _ _ _ _ r
          · split
            · exact Grow.ser e u _ _ _
            · exact .ok (Nat.le_refl _)
          · split
            · exact Sim.ser u hw ha.2 _ _ _ _ r
            · exact .ok r
  | .opt u, hw, ha, a, pos, t, c, r => by
    unfold Ser.ser serT
    split
    · exact Sim.ser u hw ha _ _ _ _ r
    · split
      · exact .ok r
      · exact .err _
  | .var ib so s al n u, hw, ha, a, pos, t, c, r => by
    unfold Ser.ser serT
    refine (Sim.patch hT r _ _).bind (fun c => ?_) fun t c r => ?_
    · split
      · exact Grow.ser e (u _) _ _ _
      · exact .err _
    · split
      · exact Sim.ser (u _) (hw.2.2.2.2.2.2.2.2 _).1 (ha.2 _) _ _ _ _ r
      · exact .err _
  | .arr n u, hw, ha, a, pos, t, c, r => by
    unfold Ser.ser serT
    exact Sim.forFrom (fun i c => Grow.ser e u (a + i * u.sizeof) (pos + i * u.sizeof) c)
      (fun i t c r => Sim.ser u hw.2 ha (a + i * u.sizeof) (pos + i * u.sizeof) t c r) _ _ _ _ r
  | .idx u, hw, ha, a, pos, t, c, r => by
    unfold Ser.ser serT
    exact Sim.ser u hw ha _ _ _ _ (r.regNew _ _)
  | .agg s al n off u, hw, ha, a, pos, t, c, r => by
    unfold Ser.ser serT
    refine Sim.forFrom (fun i c => ?_) (fun i t c r => ?_) _ _ _ _ r
    · split
      · exact Grow.ser e (u _) _ _ _
      · exact .ok (Nat.le_refl _)
    · split
      · exact Sim.ser (u _) (hw.2.2.2.1 _).1 (ha.2 _) _ _ _ _ r
      · exact .ok r

theorem Sim.resolvePending {e : SEnv} : ∀ (ps : List (Nat × Nat)) (t : TC σ) (c : Ctx), SRel R t c →
    Sim R E B (t.resolvePending T e ps) (resolvePending e ps c)
  | [], t, c, r => .ok r
  | (x, pos) :: ps, t, c, r => by
    unfold Ser.resolvePending TC.resolvePending
    rw [r.tables]
    cases resolved c x with
    | some y => exact (Sim.patchOff hT r _ _).bind (fun c => Grow.resolvePending e ps c) fun t c r => Sim.resolvePending ps t c r
    | none => exact Sim.resolvePending ps t c r

/-- The header. -/
theorem header_ok {host : Endian} {m : Mode} {th sh : HashT} {s : σ} (hs : R s 0 fun _ => 0#8) (hB : (header host m th sh).length ≤ B) :
    (∃ z, E z ∧ (⟨s, [], [], []⟩ : TC σ).putVersion T (versionBytes host m th sh) = .error z) ∨
    (∃ z s1, E z ∧ (⟨s, [], [], []⟩ : TC σ).putVersion T (versionBytes host m th sh) = .ok ⟨s1, [], [], []⟩ ∧
      (⟨s1, [], [], []⟩ : TC σ).putIntegrity T m = .error z) ∨
    ∃ s1 s2 i, (⟨s, [], [], []⟩ : TC σ).putVersion T (versionBytes host m th sh) = .ok ⟨s1, [], [], []⟩ ∧
      (⟨s1, [], [], []⟩ : TC σ).putIntegrity T m = .ok (⟨s2, [], [], []⟩, i) ∧
      (Mode.isEnabled m Mode.WITH_INTEGRITY = true → i = (versionBytes host m th sh).length) ∧
      R s2 (header host m th sh).length (wr (fun _ => 0#8) 0 (header host m th sh)) := by
  have hwr : ∀ (b : Mem), wr b 0 [] = b := fun b => funext fun x => wr_out (by simp)
  have hcat : ∀ (b : Mem) (v z : List Byte), wr (wr b 0 v) v.length z = wr b 0 (v ++ z) := by
    intro b v z
    funext x
    unfold wr
    by_cases h1 : x < v.length
    · rw [if_neg (by omega), if_pos (by omega), if_pos (by simp; omega)]
      simp [List.getD_eq_getElem?_getD, List.getElem?_append_left h1]
    · by_cases h2 : x < v.length + z.length
      · rw [if_pos (by omega), if_pos (by simp; omega)]
        simp only [Nat.sub_zero, List.getD_eq_getElem?_getD]
        rw [List.getElem?_append_right (by omega)]
      · rw [if_neg (by omega), if_neg (by omega), if_neg (by simp; omega)]
  have hlv : (versionBytes host m th sh).length ≤ B := by
    have : (versionBytes host m th sh).length ≤ (header host m th sh).length := by unfold header; simp
    omega
  have h1 : (∃ z, E z ∧ (⟨s, [], [], []⟩ : TC σ).putVersion T (versionBytes host m th sh) = .error z) ∨ ∃ s1, (⟨s, [], [], []⟩ : TC σ).putVersion T (versionBytes host m th sh) = .ok ⟨s1, [], [], []⟩ ∧ R s1 (versionBytes host m th sh).length (wr (fun _ => 0#8) 0 (versionBytes host m th sh)) := by
    cases hv : (versionBytes host m th sh).isEmpty with
    | true =>
      have hv' := List.isEmpty_iff.1 hv
      refine .inr ⟨s, by unfold TC.putVersion; rw [if_pos hv], ?_⟩
      rw [hv', hwr]
      exact hs
    | false =>
      have hne : versionBytes host m th sh ≠ [] := by
        intro h
        rw [h] at hv
        cases hv
      rcases hT.put (bs := versionBytes host m th sh) (al := 0) hs (fun _ _ => rfl) (Or.inl (by decide)) (Or.inl hne)
        (by simpa using hlv) with ⟨z, e1, hz⟩ | ⟨s1, e1, r1⟩
      · refine .inl ⟨z, hz, ?_⟩
        unfold TC.putVersion
        rw [hv, if_neg (by simp)]
        unfold TC.put
        rw [e1, error_bind, error_bind]
      refine .inr ⟨s1, ?_, ?_⟩
      · unfold TC.putVersion
        rw [hv, if_neg (by simp)]
        unfold TC.put
        rw [e1, ok_bind, ok_bind]
      · simpa using r1
  rcases h1 with h1 | ⟨s1, e1, r1⟩
  · exact .inl h1
  right
  cases hi : Mode.isEnabled m Mode.WITH_INTEGRITY with
  | false =>
    refine .inr ⟨s1, s1, 0, e1, by unfold TC.putIntegrity; rw [hi, if_neg (by decide)], (fun h => by cases h), ?_⟩
    have : header host m th sh = versionBytes host m th sh := by unfold header; simp [hi]
    rw [this]
    exact r1
  | true =>
    have hh : header host m th sh = versionBytes host m th sh ++ List.replicate 8 0#8 := by unfold header; simp [hi]
    rw [hh, List.length_append] at hB
    rcases hT.put (bs := List.replicate 8 0#8) (al := 0) r1 (fun x hx => wr_out (by omega)) (Or.inl (by decide))
      (Or.inl (by simp)) (by simpa using hB) with ⟨z, e2, hz⟩ | ⟨s2, e2, r2⟩
    · refine .inl ⟨z, s1, hz, e1, ?_⟩
      unfold TC.putIntegrity
      rw [hi, if_pos rfl]
      unfold TC.put
      rw [e2, error_bind]
    refine .inr ⟨s1, s2, _, e1, ?_, fun _ => rfl, ?_⟩
    · unfold TC.putIntegrity
      rw [hi, if_pos rfl]
      unfold TC.put
      rw [e2, ok_bind]
      rfl
    · rw [hh, ← hcat, List.length_append]
      exact r2

/-- The whole function. -/
theorem serializeT_may {host : Endian} {raw : Bool} {m : Mode} {th sh : HashT} {mem : Mem} {t : Ty} {a : Nat} {bytes : List Byte}
    {s : σ} (hs : R s 0 fun _ => 0#8) (hw : t.WF) (ha : t.Al M)
    (h : serialize host raw m th sh mem t a = .ok bytes) (hB : bytes.length ≤ B) :
    (∃ z, serializeT T host raw m th sh mem t a s = .error z ∧ E z) ∨
    ∃ s' buf, serializeT T host raw m th sh mem t a s = .ok s' ∧ R s' bytes.length buf ∧ rd buf 0 bytes.length = bytes ∧
      ∀ x, bytes.length ≤ x → buf x = 0#8 := by
  unfold serialize serRoot at h
  dsimp only at h
  generalize hc0 : (put ⟨0, fun _ => 0#8, [], [], []⟩ (header host m th sh) 0).1 = c0 at h
  have hc0' : c0 = ⟨(header host m th sh).length, wr (fun _ => 0#8) 0 (header host m th sh), [], [], []⟩ := by
    rw [← hc0]
    unfold put
    simp
  generalize he : (⟨host, conversionNecessary host m, raw, mem⟩ : SEnv) = e at h
  cases h1 : ser e t a (put c0 (rd mem a t.sizeof) t.alignof).2 (put c0 (rd mem a t.sizeof) t.alignof).1 with
  | error x => rw [h1, error_bind, error_bind] at h; cases h
  | ok c1 =>
    rw [h1, ok_bind] at h
    cases h2 : resolvePending e c1.pend c1 with
    | error x => rw [h2, error_bind, error_bind] at h; cases h
    | ok c2 =>
      rw [h2, ok_bind, ok_bind] at h
      dsimp only at h
      have hlen : c2.len = bytes.length := by
        cases hi : Mode.isEnabled m Mode.WITH_INTEGRITY with
        | false =>
          rw [hi, if_neg (by decide)] at h
          injection h with h
          rw [← h, length_rd]
        | true =>
          rw [hi, if_pos rfl] at h
          cases h3 : bufChecksum (rd c2.buf 0 c2.len) ((versionBytes host m th sh).length + 8) with
          | error x => rw [h3, error_bind] at h; cases h
          | ok hh =>
            rw [h3, ok_bind] at h
            unfold patch at h
            by_cases hp : (versionBytes host m th sh).length + (hostBytes host 8 (convertEndian host m 8 hh.toNat)).length ≤ c2.len
            · rw [decide_eq_true hp, verify_true, ok_bind, ok_bind] at h
              injection h with h
              rw [← h, length_rd]
            · rw [decide_eq_false hp] at h
              cases h
      have hl2 := Grow.resolvePending e c1.pend c1 c2 h2
      have hl1 := Grow.ser e t _ _ _ c1 h1
      have hl0 : c0.len ≤ _ := put_grow c0 (rd mem a t.sizeof) t.alignof
      have hlh : (header host m th sh).length ≤ B := by
        have : c0.len = (header host m th sh).length := by rw [hc0']
        omega
      rcases header_ok hT hs hlh with ⟨z, hz, e1⟩ | ⟨z, s1, hz, e1, e2⟩ | ⟨s1, s2, i, e1, e2, hi, r2⟩
      · exact .inl ⟨z, by unfold serializeT; dsimp only; rw [e1, error_bind], hz⟩
      · exact .inl ⟨z, by unfold serializeT; dsimp only; rw [e1, ok_bind, e2, error_bind], hz⟩
      have hpos := (Ty.pos_of_WF hw).2.1
      have hne : rd mem a t.sizeof ≠ [] := by
        intro h
        have := congrArg List.length h
        rw [length_rd, List.length_nil] at this
        omega
      have hz0 : ∀ x, c0.len ≤ x → c0.buf x = 0#8 := by
        intro x hx
        rw [hc0'] at hx ⊢
        have hx : (header host m th sh).length ≤ x := hx
        exact wr_out (m := fun _ => 0#8) (Or.inr (by rw [Nat.zero_add]; exact hx))
      rcases hT.put (bs := rd mem a t.sizeof) (al := t.alignof) (s := s2) (len := c0.len) (buf := c0.buf)
        (by rw [hc0']; exact r2) hz0 (Or.inr ha.dvd) (Or.inl hne) (by
          show (put c0 (rd mem a t.sizeof) t.alignof).1.len ≤ B
          omega) with ⟨z, e3, hz⟩ | ⟨s3, e3, r3⟩
      · refine .inl ⟨z, ?_, hz⟩
        unfold serializeT
        dsimp only
        rw [e1, ok_bind, e2, ok_bind]
        unfold TC.put
        rw [e3, error_bind, error_bind]
      have hrel : SRel R (⟨s3, [], [], []⟩ : TC σ) (put c0 (rd mem a t.sizeof) t.alignof).1 := by
        have hpp := put_pos_le c0 (rd mem a t.sizeof) t.alignof
        refine ⟨r3, fun x hx => ?_, ?_, ?_, ?_, ?_⟩
        · have hx : (put c0 (rd mem a t.sizeof) t.alignof).2 + (rd mem a t.sizeof).length ≤ x := hx
          show wr c0.buf (put c0 (rd mem a t.sizeof) t.alignof).2 _ x = 0#8
          rw [wr_out (by omega)]
          exact hz0 x (by omega)
        · show 0 < (put c0 (rd mem a t.sizeof) t.alignof).2 + (rd mem a t.sizeof).length
          rw [length_rd]
          omega
        · show [] = c0.offs
          rw [hc0']
        · show [] = c0.rngs
          rw [hc0']
        · show [] = c0.pend
          rw [hc0']
      unfold serializeT
      dsimp only
      rw [e1, ok_bind, e2, ok_bind]
      have hput : (⟨s2, [], [], []⟩ : TC σ).put T (rd mem a t.sizeof) t.alignof =
          .ok (⟨s3, [], [], []⟩, (put c0 (rd mem a t.sizeof) t.alignof).2) := by
        unfold TC.put
        rw [e3, ok_bind]
        rfl
      rw [hput, ok_bind, he]
      dsimp only
      rcases Sim.ser hT t hw ha a _ _ _ hrel c1 h1 (by omega) with ⟨z, f1, hz⟩ | ⟨t1, f1, q1⟩
      · exact .inl ⟨z, by rw [f1, error_bind], hz⟩
      rw [f1, ok_bind, q1.pend]
      rcases Sim.resolvePending hT c1.pend t1 c1 q1 c2 h2 (by omega) with ⟨z, f2, hz⟩ | ⟨t2, f2, q2⟩
      · exact .inl ⟨z, by rw [f2, error_bind], hz⟩
      rw [f2, ok_bind]
      cases hin : Mode.isEnabled m Mode.WITH_INTEGRITY with
      | false =>
        rw [hin, if_neg (by decide)] at h
        injection h with h
        rw [if_neg (by decide)]
        refine .inr ⟨t2.tgt, c2.buf, rfl, ?_, ?_, ?_⟩
        · rw [← hlen]; exact q2.tgt
        · rw [← hlen]; exact h
        · rw [← hlen]; exact q2.zero
      | true =>
        rw [hin, if_pos rfl] at h
        rw [if_pos rfl, hi hin]
        cases h3 : bufChecksum (rd c2.buf 0 c2.len) ((versionBytes host m th sh).length + 8) with
        | error x => rw [h3, error_bind] at h; cases h
        | ok hh =>
          rw [h3, ok_bind] at h
          have hst : (versionBytes host m th sh).length + 8 < c2.len := by
            unfold bufChecksum at h3
            by_cases hq : (versionBytes host m th sh).length + 8 < (rd c2.buf 0 c2.len).length
            · rw [length_rd] at hq
              exact hq
            · rw [decide_eq_false hq, require_false, error_bind] at h3
              cases h3
          rcases hT.sum q2.tgt hst h3 with ⟨z, e4, hz⟩ | ⟨s4, e4, q4⟩
          · exact .inl ⟨z, by rw [e4, error_bind], hz⟩
          rw [e4, ok_bind]
          have q2 : SRel R { t2 with tgt := s4 } c2 := ⟨q4, q2.zero, q2.pos, q2.offs, q2.rngs, q2.pend⟩
          cases h4 : patch c2 (versionBytes host m th sh).length (hostBytes host 8 (convertEndian host m 8 hh.toNat)) with
          | error x => rw [h4, error_bind] at h; cases h
          | ok c3 =>
            rw [h4, ok_bind] at h
            have hl3 : c3.len = c2.len := by
              unfold patch at h4
              by_cases hp : (versionBytes host m th sh).length + (hostBytes host 8 (convertEndian host m 8 hh.toNat)).length ≤ c2.len
              · rw [decide_eq_true hp, verify_true, ok_bind] at h4
                injection h4 with h4
                rw [← h4]
              · rw [decide_eq_false hp] at h4
                cases h4
            rcases Sim.patch hT q2 _ _ c3 h4 (by omega) with ⟨z, f3, hz⟩ | ⟨t3, f3, q3⟩
            · exact .inl ⟨z, by rw [f3, error_bind], hz⟩
            rw [f3, ok_bind]
            injection h with h
            refine .inr ⟨t3.tgt, c3.buf, rfl, ?_, ?_, ?_⟩
            · rw [← hlen, ← hl3]; exact q3.tgt
            · rw [← hlen, ← hl3]; exact h
            · rw [← hlen, ← hl3]; exact q3.zero

omit hT in
/-- A target that never fails. -/
theorem serializeT_ok (hT : T.Does R M B) {host : Endian} {raw : Bool} {m : Mode} {th sh : HashT} {mem : Mem} {t : Ty} {a : Nat}
    {bytes : List Byte} {s : σ} (hs : R s 0 fun _ => 0#8) (hw : t.WF) (ha : t.Al M)
    (h : serialize host raw m th sh mem t a = .ok bytes) (hB : bytes.length ≤ B) :
    ∃ s' buf, serializeT T host raw m th sh mem t a s = .ok s' ∧ R s' bytes.length buf ∧ rd buf 0 bytes.length = bytes ∧
      ∀ x, bytes.length ≤ x → buf x = 0#8 := by
  rcases serializeT_may hT.may hs hw ha h hB with ⟨_, _, hz⟩ | h
  · cases hz
  · exact h

end

/-! ## The targets do the same -/

theorem rd_get (b : Mem) (n i : Nat) : (rd b 0 n)[i]? = if i < n then some (b i) else none := by
  unfold rd
  by_cases h : i < n
  · rw [if_pos h]; simp [h]
  · rw [if_neg h]; simp; omega

theorem rd_block {buf : Mem} {len p : Nat} {bs : List Byte} (hz : ∀ x, len ≤ x → buf x = 0#8) (hp : len ≤ p) :
    rd (wr buf p bs) 0 (p + bs.length) = rd buf 0 len ++ List.replicate (p - len) 0#8 ++ bs := by
  apply List.ext_getElem?
  intro i
  rw [rd_get, List.getElem?_append, List.getElem?_append, List.length_append, length_rd, List.length_replicate, rd_get]
  by_cases h1 : i < len
  · rw [if_pos (by omega), if_pos (by omega), if_pos h1, if_pos h1, wr_out (by omega)]
  · by_cases h2 : i < p
    · rw [if_pos (by omega), if_pos (by omega), if_neg h1, wr_out (by omega), hz i (by omega), List.getElem?_replicate,
        if_pos (by omega)]
    · by_cases h3 : i < p + bs.length
      · rw [if_pos h3, if_neg (by omega)]
        unfold wr
        rw [if_pos (by omega), List.getD_eq_getElem?_getD, show i - (len + (p - len)) = i - p by omega,
          List.getElem?_eq_getElem (show i - p < bs.length by omega)]
        rfl
      · rw [if_neg h3, if_neg (by omega), List.getElem?_eq_none (by omega)]

theorem rd_over {buf : Mem} {len p : Nat} {bs : List Byte} (hp : p + bs.length ≤ len) :
    rd (wr buf p bs) 0 len = Target.overwrite (rd buf 0 len) p bs := by
  unfold Target.overwrite
  apply List.ext_getElem?
  intro i
  rw [rd_get, List.getElem?_append, List.getElem?_append, List.length_append, List.length_take, length_rd, List.getElem?_take,
    List.getElem?_drop, rd_get, rd_get]
  by_cases h1 : i < p
  · rw [if_pos (by omega), if_pos (by omega), if_pos (by omega), if_pos h1, if_pos (by omega), wr_out (by omega)]
  · by_cases h2 : i < p + bs.length
    · rw [if_pos (by omega), if_pos (by omega), if_neg (by omega)]
      unfold wr
      rw [if_pos (by omega), List.getD_eq_getElem?_getD, show i - min p len = i - p by omega,
        List.getElem?_eq_getElem (show i - p < bs.length by omega)]
      rfl
    · rw [if_neg (show ¬ i < min p len + bs.length by omega), show p + bs.length + (i - (min p len + bs.length)) = i by omega,
        wr_out (by omega)]

theorem specOffset_eq (len al : Nat) : Target.specOffset len al = if al > 1 then alignUp len al else len := by
  unfold Target.specOffset
  by_cases h : al > 1
  · rw [if_neg (by omega), if_pos h]
    exact (Target.alignUp_eq len al h).symm
  · rw [if_pos (by omega), if_neg h]

theorem specBlock_eq {buf : Mem} {len al : Nat} {bs : List Byte} (hz : ∀ x, len ≤ x → buf x = 0#8) :
    Target.specBlock (rd buf 0 len) bs al = rd (wr buf (if al > 1 then alignUp len al else len) bs) 0
      ((if al > 1 then alignUp len al else len) + bs.length) := by
  unfold Target.specBlock
  rw [length_rd, ← specOffset_eq, rd_block hz (Target.specOffset_ge _ _)]

/-- A vector of bytes, if its storage is always aligned. -/
theorem bufT_does {bases : Nat → Nat} {M : Nat} (hb : ∀ k, M ∣ bases k) (B : Nat) :
    (bufT bases).Does (fun s len buf => s.1 = rd buf 0 len) M B where
  put := by
    intro s len buf bs al h hz hal hne _
    obtain ⟨l, k⟩ := s
    have h : l = rd buf 0 len := h
    subst h
    by_cases hbs : bs = []
    · subst hbs
      have ⟨h1, h2⟩ : al ≤ 1 ∧ 0 < len := hne.resolve_left (fun h => h rfl)
      refine ⟨(rd buf 0 len, k + 1), ?_, ?_⟩
      · show (Target.bufWrite (bases k) (rd buf 0 len) [] al >>= fun r => .ok ((r.1, k + 1), r.2)) = _
        have : Target.bufWrite (bases k) (rd buf 0 len) [] al = .ok (rd buf 0 len, len) := by
          unfold Target.bufWrite
          have e1 : ¬ al > 1 := by omega
          have e2 : ¬ ((0 : Int) < ((0 : Nat) : Int)) := by decide
          simp only [e1, false_and, if_false, List.length_nil, Int.sub_self, e2, length_rd]
          rw [if_neg (by omega), if_pos (by omega)]
          simp [Target.overwrite]
        rw [this, ok_bind, if_neg (by omega)]
      · rw [if_neg (by omega)]
        show rd buf 0 len = rd (wr buf len []) 0 (len + 0)
        exact (rd_congr fun x _ _ => (wr_out (by rw [List.length_nil]; omega)).symm)
    · refine ⟨(Target.specBlock (rd buf 0 len) bs al, k + 1), ?_, specBlock_eq hz⟩
      show (Target.bufWrite (bases k) (rd buf 0 len) bs al >>= fun r => .ok ((r.1, k + 1), r.2)) = _
      rw [Target.bufWrite_spec _ _ _ _ hbs (hal.imp_right fun h => Or.inr (Nat.mod_eq_zero_of_dvd (Nat.dvd_trans h (hb k)))),
        ok_bind, length_rd, specOffset_eq]
  patch := by
    intro s len buf pos bs h hz hp
    obtain ⟨l, k⟩ := s
    have h : l = rd buf 0 len := h
    subst h
    refine ⟨(Target.overwrite (rd buf 0 len) pos bs, k + 1), ?_, (rd_over hp).symm⟩
    show (Target.bufPatch (rd buf 0 len) pos bs >>= fun b => .ok (b, k + 1)) = _
    unfold Target.bufPatch
    rw [length_rd, decide_eq_true (show len ≥ pos + bs.length from hp), verify_true, ok_bind, pure_ok, ok_bind]
  sum := by
    intro s len buf start h r _ hh
    refine ⟨s, ?_, r⟩
    show (do let h ← bufChecksum s.1 start; .ok (s, h)) = _
    rw [show s.1 = rd buf 0 len from r, hh, ok_bind]

/-- A file: alignment is counted from its beginning. -/
theorem fileT_does {block : Nat} (hb : 0 < block) (M B : Nat) :
    (fileT block).Does (fun f len buf => f.content = rd buf 0 len ∧ f.size = len) M B where
  put := by
    intro f len buf bs al h hz _ hne _
    obtain ⟨l, n⟩ := f
    obtain ⟨h1, h2⟩ : l = rd buf 0 len ∧ n = len := h
    subst h1
    subst h2
    by_cases hbs : bs = []
    · subst hbs
      have ⟨h1, h2⟩ : al ≤ 1 ∧ 0 < n := hne.resolve_left (fun h => h rfl)
      refine ⟨⟨rd buf 0 n, n⟩, ?_, ?_⟩
      · show Except.ok (Target.fileWrite ⟨rd buf 0 n, n⟩ [] al) = _
        have e1 : ¬ al > 1 := by omega
        simp only [Target.fileWrite, Target.fwriteAt, e1, if_false, if_true, List.length_nil, Nat.add_zero]
      · rw [if_neg (by omega)]
        refine ⟨?_, rfl⟩
        exact (rd_congr fun x _ _ => (wr_out (by rw [List.length_nil]; omega)).symm)
    · refine ⟨⟨Target.specBlock (rd buf 0 n) bs al, (Target.specBlock (rd buf 0 n) bs al).length⟩, ?_, specBlock_eq hz, ?_⟩
      · show Except.ok (Target.fileWrite ⟨rd buf 0 n, n⟩ bs al) = _
        rw [Target.fileWrite_spec _ (length_rd _ _ _).symm _ _ hbs, length_rd, specOffset_eq]
      · show (Target.specBlock (rd buf 0 n) bs al).length = _
        rw [specBlock_eq hz, length_rd]
  patch := by
    intro f len buf pos bs h hz hp
    obtain ⟨l, n⟩ := f
    obtain ⟨h1, h2⟩ : l = rd buf 0 len ∧ n = len := h
    subst h1
    subst h2
    refine ⟨_, rfl, ?_, rfl⟩
    show (Target.filePatch ⟨rd buf 0 n, n⟩ pos bs).content = _
    rw [Target.filePatch_spec _ _ _ (by show pos + bs.length ≤ (rd buf 0 n).length; rw [length_rd]; exact hp),
      ← Target.overwrite_eq_specPatch _ _ _ (by show pos + bs.length ≤ (rd buf 0 n).length; rw [length_rd]; exact hp)]
    exact (rd_over hp).symm
  sum := by
    intro f len buf start h hr hs hh
    obtain ⟨l, n⟩ := f
    obtain ⟨h1, h2⟩ : l = rd buf 0 len ∧ n = len := hr
    subst h1
    subst h2
    refine ⟨⟨rd buf 0 n, n⟩, ?_, rfl, rfl⟩
    have := (Hash.C03_file_checksum_eq_buf block hb (rd buf 0 n) start (by rw [length_rd]; exact hs)).1
    rw [length_rd] at this
    show (do let h ← Hash.fileChecksum block (rd buf 0 n) n start; .ok (_, h)) = _
    rw [this, hh, ok_bind]

/-- States of a mapping. -/
structure MRel (st : MmapVec.St) (len : Nat) (buf : Mem) : Prop where
  used : st.used = len
  le : len ≤ st.size
  file : st.file = rd buf 0 st.size
  mapped : 0 < st.size → st.mapped = true

theorem ftruncate_rd {buf : Mem} {len a b : Nat} (hz : ∀ x, len ≤ x → buf x = 0#8) (h : len ≤ a) (hab : a ≤ b) :
    MmapVec.ftruncate (rd buf 0 a) b = rd buf 0 b := by
  unfold MmapVec.ftruncate
  rw [length_rd, List.take_of_length_le (by rw [length_rd]; exact hab)]
  apply List.ext_getElem?
  intro i
  rw [List.getElem?_append, length_rd, rd_get, rd_get, List.getElem?_replicate]
  by_cases h1 : i < a
  · rw [if_pos h1, if_pos h1, if_pos (by omega)]
  · rw [if_neg h1]
    by_cases h2 : i < b
    · rw [if_pos (by omega), if_pos h2, hz i (by omega)]
      rfl
    · rw [if_neg (by omega), if_neg h2]

/-- Growing. -/
theorem mmapResize_rel {st : MmapVec.St} {len n : Nat} {buf : Mem} (h : MRel st len buf) (hz : ∀ x, len ≤ x → buf x = 0#8)
    (hn : len ≤ n) (h0 : 0 < n) (hB : n ≤ 2 ^ 63) : ∃ st', MmapVec.mmapResize st n = .ok st' ∧ MRel st' n buf ∧ st'.mapped = true := by
  unfold MmapVec.mmapResize
  by_cases hs : st.size < n
  · have hge := MmapVec.np2_ge (Nat.ne_of_gt h0) hB
    unfold MmapVec.resizeMap
    rw [if_pos hs, if_neg (by omega), ok_bind, pure_ok]
    refine ⟨_, rfl, ⟨rfl, hge, ?_, fun _ => rfl⟩, rfl⟩
    show MmapVec.ftruncate st.file _ = _
    rw [h.file, ftruncate_rd hz h.le (by omega)]
  · rw [if_neg hs]
    exact ⟨_, rfl, ⟨rfl, by show n ≤ st.size; omega, h.file, h.mapped⟩, h.mapped (by omega)⟩

theorem mmapT_does {bases : Nat → Nat} {M : Nat} (hb : ∀ k, M ∣ bases k) :
    (mmapT bases).Does (fun s len buf => MRel s.1 len buf) M (2 ^ 63) where
  put := by
    intro s len buf bs al h hz hal hne hB
    obtain ⟨st, k⟩ := s
    have h : MRel st len buf := h
    have hpos : len ≤ if al > 1 then alignUp len al else len := by rw [← specOffset_eq]; exact Target.specOffset_ge _ _
    have hstart : (if al > 1 ∧ st.used ≠ 0 then alignUp (bases k + st.used) al - bases k else st.used) =
        if al > 1 then alignUp len al else len := by
      rw [h.used]
      by_cases h1 : al > 1
      · by_cases h2 : len = 0
        · rw [if_neg (by omega), if_pos h1, h2]
          unfold alignUp
          rw [Nat.div_eq_of_lt (by omega), Nat.zero_mul]
        · rw [if_pos ⟨h1, h2⟩, if_pos h1]
          have hd : al ∣ bases k := Nat.dvd_trans (hal.resolve_left (by omega)) (hb k)
          obtain ⟨q, hq⟩ := hd
          unfold alignUp
          rw [hq, show al * q + len + al - 1 = len + al - 1 + al * q by omega, Nat.add_mul_div_left _ _ (by omega), Nat.add_mul,
            Nat.mul_comm q al]
          omega
      · rw [if_neg (by omega), if_neg h1]
    generalize hp : (if al > 1 then alignUp len al else len) = p at hB hpos hstart
    have hkey : ∃ st1, mmapGrow st p bs.length = .ok st1 ∧
        MRel st1 (p + bs.length) buf ∧ st1.mapped = true := by
      unfold mmapGrow
      dsimp only
      by_cases hbs : bs = []
      · subst hbs
        have ⟨h1, h2⟩ : al ≤ 1 ∧ 0 < len := hne.resolve_left (fun h => h rfl)
        rw [if_neg (by omega)] at hp
        subst hp
        rw [if_neg (by rw [h.used]; simp)]
        exact ⟨st, rfl, h, h.mapped (by have := h.le; omega)⟩
      · have hl := List.length_pos_iff.2 hbs
        rw [h.used, if_pos (by omega), show len + ((bs.length : Int) - ((len : Int) - (p : Int))).toNat = p + bs.length by omega]
        exact mmapResize_rel h hz (by omega) (by omega) hB
    obtain ⟨st1, e1, r1, m1⟩ := hkey
    refine ⟨({ st1 with file := Target.overwrite st1.file p bs }, k + 1), ?_, ?_⟩
    · show (mmapWrite (bases k) st bs al >>= fun r => .ok ((r.1, k + 1), r.2)) = _
      have : mmapWrite (bases k) st bs al = .ok ({ st1 with file := Target.overwrite st1.file p bs }, p) := by
        unfold mmapWrite
        dsimp only
        rw [hstart, e1, ok_bind, m1, decide_eq_true r1.le]
        rfl
      rw [this, ok_bind]
    · refine ⟨r1.used, r1.le, ?_, r1.mapped⟩
      show Target.overwrite st1.file p bs = rd (wr buf p bs) 0 st1.size
      rw [rd_over r1.le, r1.file]
  patch := by
    intro s len buf pos bs h hz hp
    obtain ⟨st, k⟩ := s
    have h : MRel st len buf := h
    refine ⟨({ st with file := Target.overwrite st.file pos bs }, k + 1), ?_, h.used, h.le, ?_, h.mapped⟩
    · show (verify (decide (pos + bs.length ≤ st.used)) >>= fun _ => _) = _
      rw [decide_eq_true (show pos + bs.length ≤ st.used by rw [h.used]; exact hp), verify_true, ok_bind]
    · show Target.overwrite st.file pos bs = rd (wr buf pos bs) 0 st.size
      rw [rd_over (Nat.le_trans hp h.le), h.file]
  sum := by
    intro s len buf start h hr _ hh
    obtain ⟨st, k⟩ := s
    refine ⟨_, ?_, hr⟩
    have hr : MRel st len buf := hr
    show (do let h ← bufChecksum (st.file.take st.used) start; .ok (_, h)) = _
    rw [hr.file, hr.used, rd_take _ _ _ hr.le, hh, ok_bind]

end Cista.Ser

import Verif.Ser.Demo

/-!
# Values without pointers, read from memory

`Val` is what a program sees of a value built from integers, blocks of bytes, vectors, arrays and aggregates; `Reads` says that a memory
holds it.  Serializing and loading such a value keeps what is read, with no further condition on the value.  `Ser/Containers.lean` applies
this to the containers that are built from vectors.
-/
set_option linter.unusedSimpArgs false
set_option linter.unusedSectionVars false

namespace Cista.Ser

open Cista.Arith (Mode)
open Cista.Hash (HashT dataStart)

/-- Contents of a value. -/
inductive Val where
  | num (n : Nat)
  | bytes (bs : List Byte)
  | list (l : List Val)

/-- The value of type `t` at `a` has the contents `v`. -/
def Reads (s : Side) : Ty → Nat → Val → Prop
  | .int w, a, .num n => s.nat a w = n
  | .blob k _, a, .bytes bs => rd s.mem a k = bs
  | .vec sw _ ty, a, .list l => s.nat (a + 8) sw = l.length ∧
      (l = [] ∨ ∃ x, s.ptr a = some x ∧ ∀ (i : Nat) (v : Val), l[i]? = some v → Reads s ty (x + i * ty.sizeof) v)
  | .arr n ty, a, .list l => l.length = n ∧ ∀ (i : Nat) (v : Val), l[i]? = some v → Reads s ty (a + i * ty.sizeof) v
  | .agg _ _ n off ty, a, .list l => l.length = n ∧ ∀ i : Fin n, ∃ v, l[i.1]? = some v ∧ Reads s (ty i) (a + off i) v
  | _, _, _ => False

/-- Integers, blocks of bytes, vectors that are not indexed, arrays and aggregates, aligned to at most 8 bytes. -/
def Ty.Plain : Ty → Prop
  | .int w => w ∣ 8
  | .blob _ al => al ∣ 8
  | .vec _ ix t => ix = false ∧ t.sizeof < 2 ^ 63 ∧ t.Plain
  | .arr _ t => t.Plain
  | .agg _ al _ _ t => al ∣ 8 ∧ ∀ i, (t i).Plain
  | _ => False

/-- Where and how a value without pointers is loaded. -/
structure Loader (m : Mode) (g : Cfg) (base len : Nat) : Prop where
  pos : 0 < base
  top : base + len < 2 ^ 63
  al : 8 ∣ base
  deep : Mode.isEnabled m Mode.DEEP_CHECK = true →
    Mode.isEnabled m Mode.UNCHECKED = false ∧ g.strict = false ∧ ∀ n, 0 < (g.tys n).alignof

theorem Ty.Plain.align : ∀ {t : Ty}, t.Plain → t.alignof ∣ 8
  | .int _, h => h
  | .blob _ _, h => h
  | .vec _ _ _, _ => Nat.dvd_refl 8
  | .arr _ t, h => Ty.Plain.align (t := t) h
  | .agg _ _ _ _ _, h => h.1

theorem Ty.Plain.al {M : Nat} (hM : 8 ∣ M) : ∀ {t : Ty}, t.Plain → t.Al M
  | .int _, h => Nat.dvd_trans h hM
  | .blob _ _, h => Nat.dvd_trans h hM
  | .vec _ _ t, h => ⟨hM, Ty.Plain.al hM (t := t) h.2.2⟩
  | .arr _ t, h => Ty.Plain.al hM (t := t) h
  | .agg _ _ _ _ _, h => ⟨Nat.dvd_trans h.1 hM, fun i => Ty.Plain.al hM (h.2 i)⟩

theorem Ty.Plain.idxOk {c : Bool} : ∀ {t : Ty}, t.Plain → t.IdxOk c
  | .int _, _ => trivial
  | .blob _ _, _ => trivial
  | .vec _ _ t, h => Ty.Plain.idxOk (t := t) h.2.2
  | .arr _ t, h => Ty.Plain.idxOk (t := t) h
  | .agg _ _ _ _ _, h => fun i => Ty.Plain.idxOk (h.2 i)

theorem Ty.Plain.fits : ∀ {t : Ty}, t.Plain → t.Fits
  | .int _, _ => trivial
  | .blob _ _, _ => trivial
  | .vec _ _ t, h => ⟨h.2.1, Ty.Plain.fits (t := t) h.2.2⟩
  | .arr _ t, h => Ty.Plain.fits (t := t) h
  | .agg _ _ _ _ _, h => fun i => Ty.Plain.fits (h.2 i)

theorem Ty.Plain.below {K : Nat} : ∀ {t : Ty}, t.Plain → t.Below K
  | .int _, _ => trivial
  | .blob _ _, _ => trivial
  | .vec _ _ t, h => Ty.Plain.below (t := t) h.2.2
  | .arr _ t, h => Ty.Plain.below (t := t) h
  | .agg _ _ _ _ _, h => fun i => Ty.Plain.below (h.2 i)

theorem Ty.Plain.ptrs {s : Side} {P : Nat → Nat → Prop} : ∀ {t : Ty}, t.Plain → ∀ a, Ptrs s P t a
  | .int _, _, _ => trivial
  | .blob _ _, _, _ => trivial
  | .vec _ _ t, h, _ => fun _ _ _ _ => Ty.Plain.ptrs (t := t) h.2.2 _
  | .arr _ t, h, _ => fun _ _ => Ty.Plain.ptrs (t := t) h _
  | .agg _ _ _ _ _, h, _ => fun i => Ty.Plain.ptrs (h.2 i) _

theorem Ty.Plain.obj {s : Side} {ex : Bool} {v n al : Nat} : ∀ {t : Ty}, t.Plain → ∀ a, ¬ Obj s t a ex v n al
  | .int _, _, _, h => h
  | .blob _ _, _, _, h => h
  | .vec _ _ t, h, _, ho => by
    obtain ⟨el, _, ⟨hx, _⟩ | ⟨i, _, ho⟩⟩ := ho
    · rw [h.1] at hx; cases hx
    · exact Ty.Plain.obj (t := t) h.2.2 _ ho
  | .arr _ t, h, _, ho => by
    obtain ⟨i, _, ho⟩ := ho
    exact Ty.Plain.obj (t := t) h _ ho
  | .agg _ _ _ _ _, h, _, ho => by
    obtain ⟨i, ho⟩ := ho
    exact Ty.Plain.obj (h.2 i) _ ho

theorem Reads.ok {e : SEnv} : ∀ {t : Ty} {a : Nat} {v : Val}, Reads e.side t a v → Ok e t a
  | .int _, _, _, _ => trivial
  | .blob _ _, _, _, _ => trivial
  | .vec sw _ ty, a, .list l, h => by
    obtain ⟨h1, h2⟩ := h
    have h1 : rdN e.host e.mem (a + 8) sw = l.length := h1
    rcases h2 with h2 | ⟨x, hx, h2⟩
    · subst h2; exact Or.inl h1
    · refine Or.inr ⟨x, hx, fun i hi => ?_⟩
      rw [h1] at hi
      exact Reads.ok (h2 i l[i] (List.getElem?_eq_getElem hi))
  | .arr n ty, a, .list l, h => fun i hi => Reads.ok (h.2 i (l[i]'(by rw [h.1]; exact hi)) (List.getElem?_eq_getElem _))
  | .agg _ _ n off ty, a, .list l, h => fun i => by
    obtain ⟨v, _, hv⟩ := h.2 i
    exact Reads.ok hv

/-- A copy reads the same. -/
theorem Reads.same {s t : Side} {R : Nat → Option Nat → Prop} : ∀ {ty : Ty} {a b : Nat} {v : Val}, Same s t R ty a b → Reads s ty a v →
    Reads t ty b v
  | .int w, a, b, .num n, h, hr => by
    have h : t.nat b w = s.nat a w := h
    have hr : s.nat a w = n := hr
    exact h.trans hr
  | .blob k _, a, b, .bytes bs, h, hr => by
    have h : rd t.mem b k = rd s.mem a k := h
    have hr : rd s.mem a k = bs := hr
    exact h.trans hr
  | .vec sw ix ty, a, b, .list l, h, hr => by
    obtain ⟨h1, _, _, h4⟩ := h
    obtain ⟨r1, r2⟩ := hr
    refine ⟨h1.trans r1, ?_⟩
    rcases h4 with ⟨h4, _⟩ | ⟨x, y, hx, hy, h4⟩
    · left; exact List.eq_nil_of_length_eq_zero (by rw [← r1]; exact h4)
    · rcases r2 with r2 | ⟨x', hx', r2⟩
      · exact Or.inl r2
      · rw [hx] at hx'
        cases hx'
        refine Or.inr ⟨y, hy, fun i v hv => ?_⟩
        have hi : i < s.nat (a + 8) sw := by rw [r1]; exact (List.getElem?_eq_some_iff.1 hv).1
        exact Reads.same (h4 i hi) (r2 i v hv)
  | .arr n ty, a, b, .list l, h, hr => by
    refine ⟨hr.1, fun i v hv => ?_⟩
    have hi : i < n := by rw [← hr.1]; exact (List.getElem?_eq_some_iff.1 hv).1
    exact Reads.same (h i hi) (hr.2 i v hv)
  | .agg _ _ n off ty, a, b, .list l, h, hr => by
    refine ⟨hr.1, fun i => ?_⟩
    obtain ⟨v, h1, h2⟩ := hr.2 i
    exact ⟨v, h1, Reads.same (h i) h2⟩

/-- A memory holds at most one value at a place. -/
theorem Reads.unique {s : Side} : ∀ {ty : Ty} {a : Nat} {v w : Val}, Reads s ty a v → Reads s ty a w → v = w
  | .int k, a, .num n, .num n', h, h' => by
    have h : s.nat a k = n := h
    have h' : s.nat a k = n' := h'
    rw [← h, ← h']
  | .blob k _, a, .bytes n, .bytes n', h, h' => by
    have h : rd s.mem a k = n := h
    have h' : rd s.mem a k = n' := h'
    rw [← h, ← h']
  | .vec sw ix ty, a, .list l, .list l', h, h' => by
    obtain ⟨h1, h2⟩ := h
    obtain ⟨h1', h2'⟩ := h'
    have hlen : l.length = l'.length := by rw [← h1, ← h1']
    congr 1
    rcases h2 with h2 | ⟨x, hx, h2⟩
    · subst h2; exact (List.eq_nil_of_length_eq_zero hlen.symm).symm
    · rcases h2' with h2' | ⟨x', hx', h2'⟩
      · subst h2'; exact List.eq_nil_of_length_eq_zero hlen
      · rw [hx] at hx'; cases hx'
        apply List.ext_getElem hlen
        intro i hi hi'
        exact Reads.unique (h2 i _ (List.getElem?_eq_getElem hi)) (h2' i _ (List.getElem?_eq_getElem hi'))
  | .arr n ty, a, .list l, .list l', h, h' => by
    congr 1
    apply List.ext_getElem (h.1.trans h'.1.symm)
    intro i hi hi'
    exact Reads.unique (h.2 i _ (List.getElem?_eq_getElem hi)) (h'.2 i _ (List.getElem?_eq_getElem hi'))
  | .agg _ _ n off ty, a, .list l, .list l', h, h' => by
    congr 1
    apply List.ext_getElem (h.1.trans h'.1.symm)
    intro i hi hi'
    obtain ⟨v, h1, h2⟩ := h.2 ⟨i, by rw [← h.1]; exact hi⟩
    obtain ⟨w, h1', h2'⟩ := h'.2 ⟨i, by rw [← h.1]; exact hi⟩
    have e := Reads.unique h2 h2'
    subst e
    have h1 : l[i]? = some v := h1
    have h1' : l'[i]? = some v := h1'
    rw [List.getElem?_eq_getElem hi] at h1
    rw [List.getElem?_eq_getElem hi'] at h1'
    injection h1 with h1
    injection h1' with h1'
    rw [h1, h1']

theorem eight_dvd_dataStart (m : Mode) : 8 ∣ dataStart m := by
  unfold dataStart Hash.integrityStart
  split <;> split <;> decide

/-- **C130** A value built from integers, blocks of bytes, vectors, arrays and aggregates can be serialized in every mode; the bytes can be
loaded at every address that is a multiple of 8, on a machine of either byte order, with either kind of pointers, with and without checks, and
the loaded value has the same contents; nothing but the data part of the buffer is written. -/
theorem C130_plain {host : Endian} {raw : Bool} {m : Mode} {th sh : HashT} {mem : Mem} {t : Ty} {a : Nat} {v : Val}
    (hv : Mode.isEnabled m Mode.SKIP_VERSION = false) (hi : Mode.isEnabled m Mode.SKIP_INTEGRITY = false)
    (hcast : Mode.isEnabled m Mode.CAST = false) (hw : t.WF) (hp : t.Plain) (h : Reads ⟨host, raw, mem⟩ t a v) :
    ∃ bytes, serialize host raw m th sh mem t a = .ok bytes ∧ ∀ g base mem2, Loader m g base bytes.length →
      rd mem2 base bytes.length = bytes → ∃ mem', deserialize g m th sh t base bytes.length mem2 = .ok (mem', base + dataStart m) ∧
        Reads ⟨g.host, g.raw, mem'⟩ t (base + dataStart m) v ∧
        ∀ x, x < base + dataStart m ∨ base + bytes.length ≤ x → mem' x = mem2 x := by
  have hs : Source host raw m mem t a :=
    ⟨hv, hi, hw, Nat.dvd_trans hp.align (eight_dvd_dataStart m), Reads.ok (e := srcEnv host raw m mem) h,
      fun el n al el' n' al' ho => absurd ho (hp.obj a)⟩
  obtain ⟨bytes, h1, h2⟩ := C37_round_trip_partial (th := th) (sh := sh) hs hcast
  refine ⟨bytes, h1, fun g base mem2 hl hrd => ?_⟩
  have hr : Reader host raw m mem t a g base bytes.length :=
    ⟨hl.pos, hl.top, hp.al hl.al, hp.idxOk, hp.ptrs a, fun hd => ⟨0, (hl.deep hd).1, (hl.deep hd).2.1, hp.fits, hp.below,
      fun n hn => absurd hn (Nat.not_lt_zero n), (hl.deep hd).2.2, by omega⟩⟩
  obtain ⟨mem', e1, e2, e3⟩ := h2 g base mem2 hr hrd
  exact ⟨mem', e1, h.same e2, e3⟩

/-! ## Examples -/

/-- A decision procedure for `Reads`. -/
def readsB (s : Side) : Ty → Nat → Val → Bool
  | .int w, a, .num n => s.nat a w == n
  | .blob k _, a, .bytes bs => rd s.mem a k == bs
  | .vec sw _ ty, a, .list l => s.nat (a + 8) sw == l.length && (l.isEmpty || match s.ptr a with
      | some x => (List.range l.length).all fun i => match l[i]? with
        | some v => readsB s ty (x + i * ty.sizeof) v
        | none => true
      | none => false)
  | .arr n ty, a, .list l => l.length == n && (List.range l.length).all fun i => match l[i]? with
      | some v => readsB s ty (a + i * ty.sizeof) v
      | none => true
  | .agg _ _ n off ty, a, .list l => l.length == n && decide (∀ i : Fin n, (match l[i.1]? with
      | some v => readsB s (ty i) (a + off i) v
      | none => false) = true)
  | _, _, _ => false

theorem all_reads {s : Side} {ty : Ty} {x : Nat} {l : List Val} (ih : ∀ a v, readsB s ty a v = true → Reads s ty a v)
    (h : ((List.range l.length).all fun i => match l[i]? with
        | some v => readsB s ty (x + i * ty.sizeof) v
        | none => true) = true) (i : Nat) (v : Val) (hv : l[i]? = some v) : Reads s ty (x + i * ty.sizeof) v := by
  have := List.all_eq_true.1 h i (List.mem_range.2 (List.getElem?_eq_some_iff.1 hv).1)
  rw [hv] at this
  exact ih _ _ this

theorem reads_of_readsB {s : Side} : ∀ {ty : Ty} {a : Nat} {v : Val}, readsB s ty a v = true → Reads s ty a v
  | .int _, _, .num _, h => eq_of_beq h
  | .blob _ _, _, .bytes _, h => eq_of_beq h
  | .vec _ _ ty, a, .list l, h => by
    obtain ⟨h1, h2⟩ := Bool.and_eq_true_iff.1 h
    refine ⟨eq_of_beq h1, ?_⟩
    rcases Bool.or_eq_true_iff.1 h2 with h3 | h3
    · exact Or.inl (List.isEmpty_iff.1 h3)
    · cases hp : s.ptr a with
      | none => rw [hp] at h3; exact absurd h3 nofun
      | some x =>
        rw [hp] at h3
        exact Or.inr ⟨x, rfl, all_reads (fun _ _ => reads_of_readsB) h3⟩
  | .arr _ ty, a, .list l, h => by
    obtain ⟨h1, h2⟩ := Bool.and_eq_true_iff.1 h
    exact ⟨eq_of_beq h1, all_reads (fun _ _ => reads_of_readsB) h2⟩
  | .agg _ _ n off ty, a, .list l, h => by
    obtain ⟨h1, h2⟩ := Bool.and_eq_true_iff.1 h
    refine ⟨eq_of_beq h1, fun i => ?_⟩
    have h3 := of_decide_eq_true h2 i
    cases hv : l[i.1]? with
    | none => rw [hv] at h3; exact absurd h3 nofun
    | some v => rw [hv] at h3; exact ⟨v, rfl, reads_of_readsB h3⟩

/-- A vector at `a` (offset pointers, little endian), its elements at `x`. -/
def vecAt (a x : Nat) (n : Nat) (elems : List Byte) : List (Nat × List Byte) :=
  [(a, encI .little (x - a)), (a + 8, leBytes 4 n), (a + 12, leBytes 4 n), (a + 16, leBytes 1 1), (x, elems)]

/-- Numbers of `w` bytes. -/
def numsLE (w : Nat) (l : List Nat) : List Byte := l.flatMap (leBytes w)

/-- Where the demonstrations are loaded. -/
theorem demo_loader (len : Nat) (h : len < 2 ^ 32) : Loader demoMode demoCfg 4096 len :=
  ⟨by decide, by omega, by decide, fun _ => ⟨by decide, rfl, fun _ => (by decide : 0 < 4)⟩⟩

/-- A structure of a number, an array of two numbers, four bytes and a vector of vectors. -/
def plainOff : Fin 4 → Nat
  | 0 => 0
  | 1 => 8
  | 2 => 12
  | 3 => 16
def plainTys : Fin 4 → Ty
  | 0 => .int 8
  | 1 => .arr 2 (.int 2)
  | 2 => .blob 4 1
  | 3 => .vec 4 false (.vec 4 false (.int 2))
abbrev plainTy : Ty := .agg 40 8 4 plainOff plainTys

def plainMem : Mem := segs ([(64, leBytes 8 1234567890123), (72, numsLE 2 [7, 65535]), (76, [1, 2, 3, 4])] ++ vecAt 80 128 2 [] ++
  vecAt 128 256 3 (numsLE 2 [1, 2, 300]) ++ vecAt 152 320 0 [])

def plainVal : Val := .list [.num 1234567890123, .list [.num 7, .num 65535], .bytes [1, 2, 3, 4],
  .list [.list [.num 1, .num 2, .num 300], .list []]]

theorem plain_reads : Reads ⟨.little, false, plainMem⟩ plainTy 64 plainVal := reads_of_readsB (by decide +kernel)

theorem plain_wf : plainTy.WF := by
  refine ⟨by decide, by decide, by decide, fun i => ?_, by decide⟩
  match i with
  | 0 => exact ⟨Or.inr (Or.inr (Or.inr rfl)), by decide, by decide, by decide⟩
  | 1 => exact ⟨⟨by decide, Or.inr (Or.inl rfl)⟩, by decide, by decide, by decide⟩
  | 2 => exact ⟨⟨by decide, by decide, by decide⟩, by decide, by decide, by decide⟩
  | 3 => exact ⟨⟨Or.inl rfl, Or.inl rfl, Or.inr (Or.inl rfl)⟩, by decide, by decide, by decide⟩

theorem plain_plain : plainTy.Plain :=
  ⟨by decide, fun i => match i with
    | 0 => (by decide : 8 ∣ 8)
    | 1 => (by decide : 2 ∣ 8)
    | 2 => (by decide : 1 ∣ 8)
    | 3 => ⟨rfl, by decide, rfl, by decide, (by decide : 2 ∣ 8)⟩⟩

/-- Little endian with offset pointers, loaded by a big-endian machine with raw pointers. -/
example : ∃ bytes, serialize .little false demoMode 17#64 23#64 plainMem plainTy 64 = .ok bytes ∧ bytes.length = 110 ∧
    ∃ mem', deserialize demoCfg demoMode 17#64 23#64 plainTy 4096 bytes.length (segs [(4096, bytes)]) = .ok (mem', 4112) ∧
      Reads ⟨.big, true, mem'⟩ plainTy 4112 plainVal := by
  obtain ⟨bytes, h1, h2⟩ := C130_plain (m := demoMode) (th := 17#64) (sh := 23#64) (by decide) (by decide) (by decide) plain_wf plain_plain plain_reads
  have hlen : (match serialize .little false demoMode 17#64 23#64 plainMem plainTy 64 with
    | .ok b => b.length
    | .error _ => 0) = 110 := by decide +kernel
  rw [h1] at hlen
  have hlen : bytes.length = 110 := hlen
  refine ⟨bytes, h1, hlen, ?_⟩
  obtain ⟨mem', h3, h4, _⟩ := h2 demoCfg 4096 (segs [(4096, bytes)]) (demo_loader _ (by omega)) (rd_wr_same _ _ _)
  exact ⟨mem', h3, h4⟩

end Cista.Ser

import Verif.Ser.Root
import Verif.Ser.Deep
import Verif.Hash.Props
import Verif.Target.Props

/-!
# `serialize` and `deserialize`

The public functions: header, checksum, recursive part.
-/
set_option linter.unusedSimpArgs false
set_option linter.unusedSectionVars false

namespace Cista.Ser

open Cista.Arith (Mode)
open Cista.Hash (HashT versionBytes checksumBytes finish dataStart integrityStart bufChecksum)

/-! ## Model -/

/-- serialization.h:485-505: version word and placeholder of the checksum. -/
def header (host : Endian) (m : Mode) (th sh : HashT) : List Byte :=
  versionBytes host m th sh ++ if Mode.isEnabled m Mode.WITH_INTEGRITY then List.replicate 8 0#8 else []

/-- serialization.h:481-523 `serialize<Mode>(target, value)`: version word, placeholder of the checksum, root and everything
behind it, checksum.  `th`, `sh` are the type hashes, `a` is the address of the value in memory `mem`. -/
def serialize (host : Endian) (raw : Bool) (m : Mode) (th sh : HashT) (mem : Mem) (t : Ty) (a : Nat) : Res (List Byte) := do
  let r ← serRoot ⟨host, conversionNecessary host m, raw, mem⟩ t a (header host m th sh)
  if Mode.isEnabled m Mode.WITH_INTEGRITY then do
    let h ← bufChecksum (rd r.1.buf 0 r.1.len) ((versionBytes host m th sh).length + 8)
    let c ← patch r.1 (versionBytes host m th sh).length (hostBytes host 8 (convertEndian host m 8 h.toNat))
    .ok (rd c.buf 0 c.len)
  else .ok (rd r.1.buf 0 r.1.len)

/-- Parameters of a deserialization besides the mode: machine, kind of pointers, meaning of signed overflow, pointee types, bound on
pointer hops of the deep check, type hashes of the pointers. -/
structure Cfg where
  host : Endian
  raw : Bool
  strict : Bool
  tys : Nat → Ty
  fuel : Nat
  key : Nat → HashT

/-- The context of serialization.h:566-651 for the buffer `[base, base + len)`. -/
def Cfg.env (g : Cfg) (m : Mode) (base len : Nat) : DEnv :=
  ⟨g.host, conversionNecessary g.host m, g.raw, Mode.isEnabled m Mode.UNCHECKED, g.strict, base, base + len,
    fun n => ((g.tys n).sizeof, (g.tys n).alignof), g.key⟩

/-- serialization.h:1064-1085 `deserialize<T, Mode>(from, to)`: memory afterwards and address of the root. -/
def deserialize (g : Cfg) (m : Mode) (th sh : HashT) (t : Ty) (base len : Nat) (mem : Mem) : Res (Mem × Nat) :=
  if Mode.isEnabled m Mode.CAST then .ok (mem, base)
  else do
    Hash.check g.host m th sh (rd mem base len)
    let mem' ← deser (g.env m base len) t (base + dataStart m) mem
    if Mode.isEnabled m Mode.DEEP_CHECK then do
      let _ ← deepT (g.env m base len) mem' (deep (g.env m base len) mem' g.tys g.fuel) t (base + dataStart m) []
      .ok (mem', base + dataStart m)
    else .ok (mem', base + dataStart m)

/-! ## Header -/

theorem rd_take (b : Mem) (n k : Nat) (h : k ≤ n) : (rd b 0 n).take k = rd b 0 k := by
  unfold rd
  rw [← List.map_take, List.take_range, Nat.min_eq_left h]

theorem rd_split (b : Mem) (a n k : Nat) : rd b a (n + k) = rd b a n ++ rd b (a + n) k := by
  unfold rd
  rw [List.range_add, List.map_append, List.map_map]
  congr 1
  refine List.map_congr_left fun i _ => ?_
  simp only [Function.comp_apply]
  congr 1
  omega

theorem rd_prefix {b : Mem} {hdr : List Byte} (h : ∀ i, (hi : i < hdr.length) → b i = hdr[i]) : rd b 0 hdr.length = hdr := by
  refine List.ext_getElem (by simp) fun i h1 h2 => ?_
  unfold rd
  simp [h i h2]

theorem rd_wr_after (b : Mem) (p : Nat) (bs : List Byte) (a n : Nat) (h : p + bs.length ≤ a) : rd (wr b p bs) a n = rd b a n := by
  refine rd_eq_iff.2 fun i hi => ?_
  exact wr_out (by omega)

theorem length_versionBytes (host : Endian) (m : Mode) (th sh : HashT) (hsv : Mode.isEnabled m Mode.SKIP_VERSION = false) :
    (versionBytes host m th sh).length = integrityStart m := by
  unfold versionBytes integrityStart
  cases hv : Mode.isEnabled m Mode.WITH_VERSION <;>
  cases hs : Mode.isEnabled m Mode.WITH_STATIC_VERSION <;> simp [hsv]

theorem length_header (host : Endian) (m : Mode) (th sh : HashT) (hsv : Mode.isEnabled m Mode.SKIP_VERSION = false)
    (hsi : Mode.isEnabled m Mode.SKIP_INTEGRITY = false) : (header host m th sh).length = dataStart m := by
  unfold header dataStart
  rw [List.length_append, length_versionBytes host m th sh hsv]
  cases hi : Mode.isEnabled m Mode.WITH_INTEGRITY <;> simp [hsi]

/-- The finished buffer in terms of the run of the recursive serializer. -/
theorem serialize_eq {host : Endian} {raw : Bool} {m : Mode} {th sh : HashT} {mem : Mem} {t : Ty} {a p : Nat} {c : Ctx}
    (hr : serRoot ⟨host, conversionNecessary host m, raw, mem⟩ t a (header host m th sh) = .ok (c, p))
    (hh : ∀ i, (hi : i < (header host m th sh).length) → c.buf i = (header host m th sh)[i])
    (hl : (header host m th sh).length < c.len) :
    serialize host raw m th sh mem t a =
      .ok (finish host m th sh (rd c.buf (header host m th sh).length (c.len - (header host m th sh).length))) := by
  unfold serialize
  rw [hr, ok_bind]
  have hpre := rd_prefix hh
  have hsp : rd c.buf 0 c.len = header host m th sh ++
      rd c.buf (header host m th sh).length (c.len - (header host m th sh).length) := by
    have := rd_split c.buf 0 (header host m th sh).length (c.len - (header host m th sh).length)
    rw [Nat.zero_add, Nat.add_sub_cancel' (Nat.le_of_lt hl), hpre] at this
    exact this
  unfold finish checksumBytes
  cases hi : Mode.isEnabled m Mode.WITH_INTEGRITY with
  | false =>
    simp only [Bool.false_eq_true, if_false, List.append_nil]
    rw [hsp]
    simp [header, hi]
  | true =>
    have hlen : (header host m th sh).length = (versionBytes host m th sh).length + 8 := by simp [header, hi]
    simp only [if_true]
    have hck : bufChecksum (rd c.buf 0 c.len) ((versionBytes host m th sh).length + 8) =
        .ok (Hash.fnv Hash.BASE_HASH (rd c.buf (header host m th sh).length (c.len - (header host m th sh).length))) := by
      unfold bufChecksum require
      rw [if_pos (by rw [length_rd]; simp only [decide_eq_true_eq]; omega), ok_bind, hsp, ← hlen]
      simp
      rfl
    rw [hck, ok_bind]
    generalize hg : Hash.fnv Hash.BASE_HASH (rd c.buf (header host m th sh).length (c.len - (header host m th sh).length)) = h
    have hL : (hostBytes host 8 (convertEndian host m 8 h.toNat)).length = 8 := by simp
    unfold patch
    rw [hL, show decide ((versionBytes host m th sh).length + 8 ≤ c.len) = true by simp only [decide_eq_true_eq]; omega, verify_true,
      ok_bind, ok_bind]
    congr 1
    show rd (wr c.buf _ _) 0 c.len = _
    have e1 : c.len = (versionBytes host m th sh).length + (8 + (c.len - (header host m th sh).length)) := by omega
    rw [e1, rd_split, rd_split, Nat.zero_add]
    have e2 : (versionBytes host m th sh).length + (8 + (c.len - (header host m th sh).length)) - (header host m th sh).length =
      c.len - (header host m th sh).length := by omega
    rw [e2, List.append_assoc]
    congr 1
    · have : rd c.buf 0 (versionBytes host m th sh).length = versionBytes host m th sh := by
        refine rd_prefix fun i hi' => ?_
        have := hh i (by omega)
        rw [this]
        simp [header, List.getElem_append_left, hi']
      exact Eq.trans (rd_eq_iff.2 fun i hi' => wr_out (by omega)) this
    · congr 1
      · rw [rd_wr_same' _ _ _ _ hL]
      · rw [rd_wr_after _ _ _ _ _ (by omega), ← hlen]

theorem finish_host (h h' : Endian) (m : Mode) (th sh : HashT) (pl : List Byte) : finish h m th sh pl = finish h' m th sh pl := by
  unfold finish versionBytes checksumBytes
  simp only [Hash.C06_stored_bytes_host_independent]

/-! ## Round trip -/

/-- The source environment of a serialization. -/
def srcEnv (host : Endian) (raw : Bool) (m : Mode) (mem : Mem) : SEnv := ⟨host, conversionNecessary host m, raw, mem⟩

theorem linked_order (h h' : Endian) (m : Mode) : conversionNecessary h m = conversionNecessary h' m ↔ h = h' := by
  unfold conversionNecessary
  cases h <;> cases h' <;> split <;> decide

theorem rootPos_dvd {n al : Nat} (hal : 0 < al) (h : al ∣ n) : rootPos n al = n := by
  unfold rootPos
  split
  · next h1 =>
    rw [Target.alignUp_eq _ _ h1, Nat.mod_eq_zero_of_dvd h]
    simp
  · rfl

theorem api_round_trip {host : Endian} {raw : Bool} {m : Mode} {th sh : HashT} {mem : Mem} {t : Ty} {a : Nat}
    (hsv : Mode.isEnabled m Mode.SKIP_VERSION = false) (hsi : Mode.isEnabled m Mode.SKIP_INTEGRITY = false)
    (hw : t.WF) (hal : t.alignof ∣ dataStart m)
    (hok : Ok (srcEnv host raw m mem) t a) (hap : Apart (srcEnv host raw m mem).side t a) :
    ∃ bytes, serialize host raw m th sh mem t a = .ok bytes ∧ (∀ host', Hash.check host' m th sh bytes = .ok ()) ∧
      ∀ (d : DEnv) (base : Nat) (mem2 : Mem), Linked (srcEnv host raw m mem) d base bytes.length → t.Al base → t.IdxOk d.conv →
      (d.unchecked = false → PtrsTyped d (srcEnv host raw m mem).side t a) → rd mem2 base bytes.length = bytes →
      ∃ mem', deser d t (base + dataStart m) mem2 = .ok mem' ∧
        Same (srcEnv host raw m mem).side (d.side mem')
          (Follows (srcEnv host raw m mem).side (d.side mem') t a (base + dataStart m)) t a (base + dataStart m) ∧
        (∀ x, x < base + dataStart m ∨ base + bytes.length ≤ x → mem' x = mem2 x) ∧
        ∀ tys f vis, PtrsDeep base tys (srcEnv host raw m mem).side t a →
          deepT d mem' (deep d mem' tys f) t (base + dataStart m) vis ≠ .error .exn := by
  have htp := Ty.pos_of_WF (t := t) hw
  obtain ⟨c, hrun, hhdr, hfit, hback⟩ := round_trip hw hok hap (header host m th sh)
  have hlh := length_header host m th sh hsv hsi
  have hrp : rootPos (header host m th sh).length t.alignof = dataStart m := by rw [hlh]; exact rootPos_dvd htp.1 hal
  rw [hrp] at hrun hfit hback
  have hpos : 0 < t.sizeof := htp.2.1
  have hser := serialize_eq (th := th) (sh := sh) hrun hhdr (by omega)
  rw [hlh] at hser
  have hplen : (rd c.buf (dataStart m) (c.len - dataStart m)).length = c.len - dataStart m := length_rd _ _ _
  have hpre : (versionBytes host m th sh ++ checksumBytes host m (rd c.buf (dataStart m) (c.len - dataStart m))).length = dataStart m := by
    rw [List.length_append, length_versionBytes host m th sh hsv]
    unfold checksumBytes dataStart
    cases hi : Mode.isEnabled m Mode.WITH_INTEGRITY <;> simp [hsi]
  have hblen : (finish host m th sh (rd c.buf (dataStart m) (c.len - dataStart m))).length = c.len := by
    unfold finish
    rw [List.length_append, hpre, hplen]
    omega
  refine ⟨_, hser, fun host' => ?_, fun d base mem2 hk hAl hIdx hty hrd => ?_⟩
  · rw [finish_host host host']
    refine Hash.C04_original_accepted _ _ _ _ _ (fun h => ?_) hsv hsi
    rw [h] at hplen
    simp only [List.length_nil] at hplen
    omega
  · have hmem : ∀ x, dataStart m ≤ x → x < c.len → mem2 (base + x) = c.buf x := by
      intro x h1 h2
      have e1 : rd mem2 (base + dataStart m) (c.len - dataStart m) = rd c.buf (dataStart m) (c.len - dataStart m) := by
        have := congrArg (List.drop (dataStart m)) hrd
        rw [hblen] at this
        have e2 : c.len = dataStart m + (c.len - dataStart m) := by omega
        rw [show rd mem2 base c.len = rd mem2 base (dataStart m) ++ rd mem2 (base + dataStart m) (c.len - dataStart m) by
          rw [← rd_split, ← e2]] at this
        unfold finish at this
        rw [List.drop_left' (length_rd _ _ _), List.drop_left' hpre] at this
        exact this
      have := rd_eq_iff.1 e1 (x - dataStart m) (by omega)
      rw [show base + dataStart m + (x - dataStart m) = base + x by omega, show dataStart m + (x - dataStart m) = x by omega] at this
      exact this
    rw [hblen] at hk ⊢
    obtain ⟨mem', h1, h2, h3, h4⟩ := hback d base mem2 hk hAl hIdx hty (by rw [hlh]; exact hmem)
    exact ⟨mem', h1, h2, by rw [hlh] at h3; exact h3, h4⟩

/-! ## Arbitrary input -/

/-- What is known about every run on arbitrary input. -/
theorem api_tri {g : Cfg} {m : Mode} {th sh : HashT} {t : Ty} {base len : Nat} {mem : Mem} {K : Nat}
    (hu : Mode.isEnabled m Mode.UNCHECKED = false) (hcast : Mode.isEnabled m Mode.CAST = false) (hst : g.strict = false)
    (hb0 : 0 < base) (hb1 : base + len < 2 ^ 63) (hw : t.WF) (hf : t.Fits) (hS : Steady (g.env m base len) t) (hK : t.Below K)
    (hT : ∀ n, n < K → (g.tys n).WF ∧ (g.tys n).Fits ∧ (g.tys n).Below K) (hobj : ∀ n, 0 < (g.tys n).alignof)
    (hfuel : K * len ≤ g.fuel) :
    Tri (deserialize g m th sh t base len mem) fun r =>
      r.2 = base + dataStart m ∧ (∀ x, x < base ∨ base + len ≤ x → r.1 x = mem x) ∧
      (conversionNecessary g.host m = false → g.raw = false → r.1 = mem) ∧
      (Mode.isEnabled m Mode.DEEP_CHECK = true ∨ (conversionNecessary g.host m = false ∧ g.raw = false) →
        Safe (g.env m base len) r.1 t r.2) ∧
      (Mode.isEnabled m Mode.DEEP_CHECK = true → Keyed (g.env m base len) g.tys K → ∀ n x, Reach (g.env m base len) r.1 g.tys t r.2 n x →
        Safe (g.env m base len) r.1 (g.tys n) x) := by
  have hd : (g.env m base len).Checked := ⟨hu, hst, hb0, hb1⟩
  unfold deserialize
  rw [hcast]
  simp only [Bool.false_eq_true, if_false]
  rcases Hash.C04_check_no_ub g.host m th sh (rd mem base len) with hc | hc
  · rw [hc, ok_bind]
    have hlen : dataStart m < len := by
      have := ((Hash.check_ok_iff g.host m th sh (rd mem base len)).1 hc).1
      rw [length_rd] at this
      exact this
    have ha : 0 < base + dataStart m ∧ base + dataStart m < 2 ^ 63 := by omega
    refine Tri.bind (deser_tri hd hobj t hw hf hS (base + dataStart m) ha mem) fun mem' _ hp => ?_
    obtain ⟨hk, hs⟩ := hp
    cases hdc : Mode.isEnabled m Mode.DEEP_CHECK with
    | false =>
      simp only [Bool.false_eq_true, if_false]
      refine ⟨rfl, hk.1, hk.2, fun h => ?_, (fun h => by cases h)⟩
      rcases h with h | ⟨h1, h2⟩
      · cases h
      · rw [show mem' = mem from hk.2 h1 h2]
        exact hs h1 h2
    | true =>
      simp only [if_true]
      have hTb : Table (g.env m base len) g.tys K := ⟨hT, fun _ _ => rfl⟩
      have hv : Valid (g.env m base len) K [] := ⟨List.nodup_nil, fun k hk => by simp at hk⟩
      have hlen' : (g.env m base len).hi - (g.env m base len).lo = len := by
        show base + len - base = len
        omega
      have hdeep := deepT_tri (m := mem') hd hTb (deep_tri hd hTb g.fuel) t hw hf hK (base + dataStart m) ha [] hv
        (by rw [hlen']; simp only [List.length_nil]; omega)
      refine Tri.bind hdeep fun vis _ hq => ?_
      exact ⟨rfl, hk.1, hk.2, fun _ => hq.safe, fun _ hkey n x hr => (reach_safe hTb hkey hK hq hr).2.1⟩
  · rw [hc, error_bind]
    exact Tri.exn

end Cista.Ser

import Verif.Ser.Twin

/-!
# Properties of serialization

Round trip (C37), pointers (C38), arbitrary input (C39, C40), acceptance of valid data (C41), read-only loading (C55).
-/
set_option linter.unusedSimpArgs false
set_option linter.unusedSectionVars false

namespace Cista.Ser

open Cista.Arith (Mode)
open Cista.Hash (HashT dataStart)

/-! ## Assumptions, in one place -/

/-- What is written: a well-formed type whose root is aligned behind the header, a live value (valid flags, separate vector
storages). -/
structure Source (host : Endian) (raw : Bool) (m : Mode) (mem : Mem) (t : Ty) (a : Nat) : Prop where
  version : Mode.isEnabled m Mode.SKIP_VERSION = false
  integrity : Mode.isEnabled m Mode.SKIP_INTEGRITY = false
  wf : t.WF
  root : t.alignof ∣ dataStart m
  live : Ok (srcEnv host raw m mem) t a
  apart : Apart (srcEnv host raw m mem).side t a

/-- What the deep check needs: the table of pointee types is finite (`K` types), signed overflow wraps, enough fuel. -/
structure DeepCfg (g : Cfg) (m : Mode) (t : Ty) (len K : Nat) : Prop where
  checked : Mode.isEnabled m Mode.UNCHECKED = false
  wrap : g.strict = false
  fits : t.Fits
  below : t.Below K
  table : ∀ n, n < K → (g.tys n).WF ∧ (g.tys n).Fits ∧ (g.tys n).Below K
  pos : ∀ n, 0 < (g.tys n).alignof
  fuel : K * len ≤ g.fuel

/-- Where and how it is loaded: aligned for every type inside, pointers have the type of their target, variants have one byte
indices unless no conversion is needed. -/
structure Reader (host : Endian) (raw : Bool) (m : Mode) (mem : Mem) (t : Ty) (a : Nat) (g : Cfg) (base len : Nat) : Prop where
  pos : 0 < base
  top : base + len < 2 ^ 63
  al : t.Al base
  idx : t.IdxOk (conversionNecessary g.host m)
  typed : PtrsDeep base g.tys (srcEnv host raw m mem).side t a
  deep : Mode.isEnabled m Mode.DEEP_CHECK = true → ∃ K, DeepCfg g m t len K

/-! ## C37, C38: round trip -/

/-- C37: writing a value and loading the bytes at any aligned address, on a machine of either byte order, succeeds and yields an
equal value; only the data part of the buffer is written.

Partial: the root's alignment must divide the size of the header (`Source.root`, see `C37_overaligned_root_violated`), variants
with more than 255 alternatives must not need conversion (`Reader.idx`, see `C37_variant_index_violated`), empty strings on the
heap must have no storage (`Source.live`, see `C41_string_violated`), hash tables must satisfy `HTable`, which fails for some tables with
tombstones (`Source.live`, see `C41_hash_accepted_iff_violated`). -/
theorem C37_round_trip_partial {host : Endian} {raw : Bool} {m : Mode} {th sh : HashT} {mem : Mem} {t : Ty} {a : Nat} (hs : Source host raw m mem t a)
    (hcast : Mode.isEnabled m Mode.CAST = false) :
    ∃ bytes, serialize host raw m th sh mem t a = .ok bytes ∧ ∀ g base mem2, Reader host raw m mem t a g base bytes.length →
      rd mem2 base bytes.length = bytes → ∃ mem', deserialize g m th sh t base bytes.length mem2 = .ok (mem', base + dataStart m) ∧
        Same ⟨host, raw, mem⟩ ⟨g.host, g.raw, mem'⟩ (Follows ⟨host, raw, mem⟩ ⟨g.host, g.raw, mem'⟩ t a (base + dataStart m))
          t a (base + dataStart m) ∧
        ∀ x, x < base + dataStart m ∨ base + bytes.length ≤ x → mem' x = mem2 x := by
  obtain ⟨bytes, h1, h2, h3⟩ := api_round_trip (th := th) (sh := sh) hs.version hs.integrity hs.wf hs.root hs.live hs.apart
  refine ⟨bytes, h1, fun g base mem2 hr hrd => ?_⟩
  have hty : PtrsTyped (g.env m base bytes.length) (srcEnv host raw m mem).side t a :=
    Ptrs.mono (fun n v h => HasTy.typed hs.wf h) _ _ hr.typed
  obtain ⟨mem', e1, e2, e3, e4⟩ := h3 (g.env m base bytes.length) base mem2
    ⟨linked_order host g.host m, hr.pos, Nat.le_refl _, Nat.le_refl _, hr.top⟩ hr.al hr.idx (fun _ => hty) hrd
  refine ⟨mem', ?_, e2, e3⟩
  have hrun : deserialize g m th sh t base bytes.length mem2 = (if Mode.isEnabled m Mode.DEEP_CHECK then do
      let _ ← deepT (g.env m base bytes.length) mem' (deep (g.env m base bytes.length) mem' g.tys g.fuel) t (base + dataStart m) []
      .ok (mem', base + dataStart m)
      else .ok (mem', base + dataStart m)) := by
    unfold deserialize
    rw [hcast]
    simp only [Bool.false_eq_true, if_false]
    rw [hrd, h2, ok_bind, e1, ok_bind]
  cases hdc : Mode.isEnabled m Mode.DEEP_CHECK with
  | false =>
    rw [hrun, hdc]
    simp only [Bool.false_eq_true, if_false]
  | true =>
    obtain ⟨K, hd⟩ := hr.deep hdc
    have hno := e4 g.tys g.fuel [] hr.typed
    have hc := (Hash.check_ok_iff g.host m th sh (rd mem2 base bytes.length)).1 (by rw [hrd]; exact h2 _)
    have hlen : dataStart m < bytes.length := by
      have := hc.1
      rw [length_rd] at this
      exact this
    have hpos := hr.pos
    have htop := hr.top
    have hTb : Table (g.env m base bytes.length) g.tys K := ⟨hd.table, fun _ _ => rfl⟩
    have hv : Valid (g.env m base bytes.length) K [] := ⟨List.nodup_nil, fun k hk => by simp at hk⟩
    have hlen' : (g.env m base bytes.length).hi - (g.env m base bytes.length).lo = bytes.length := by
      show base + bytes.length - base = bytes.length
      omega
    have hfuel := hd.fuel
    have hck : (g.env m base bytes.length).Checked := ⟨hd.checked, hd.wrap, hpos, htop⟩
    have htri := deepT_tri (m := mem') hck hTb (deep_tri hck hTb g.fuel) t hs.wf hd.fits hd.below (base + dataStart m) (by omega) [] hv
      (by rw [hlen']; simp only [List.length_nil]; omega)
    rw [hrun, hdc]
    simp only [if_true]
    cases hdt : deepT (g.env m base bytes.length) mem' (deep (g.env m base bytes.length) mem' g.tys g.fuel) t (base + dataStart m) [] with
    | ok v => rfl
    | error x =>
      rw [hdt] at htri
      have : x = .exn := htri
      subst this
      exact absurd hdt hno

/-- C37, `mode::CAST`: bytes without a header in the byte order of the reading machine, with offset pointers, can be used in place
at any aligned address: nothing is checked or written.

Partial: as `C37_round_trip_partial`. -/
theorem C37_cast_partial {host : Endian} {raw : Bool} {m : Mode} {th sh : HashT} {mem : Mem} {t : Ty} {a : Nat}
    (hs : Source host raw m mem t a) (hcast : Mode.isEnabled m Mode.CAST = true) (h0 : dataStart m = 0) :
    ∃ bytes, serialize host raw m th sh mem t a = .ok bytes ∧ ∀ g base mem2, 0 < base → base + bytes.length < 2 ^ 63 → t.Al base →
      conversionNecessary g.host m = false → g.raw = false → rd mem2 base bytes.length = bytes →
      deserialize g m th sh t base bytes.length mem2 = .ok (mem2, base) ∧
        Same ⟨host, raw, mem⟩ ⟨g.host, g.raw, mem2⟩ (Follows ⟨host, raw, mem⟩ ⟨g.host, g.raw, mem2⟩ t a base) t a base := by
  obtain ⟨bytes, h1, h2, h3⟩ := api_round_trip (th := th) (sh := sh) hs.version hs.integrity hs.wf hs.root hs.live hs.apart
  refine ⟨bytes, h1, fun g base mem2 hb0 hb1 hAl hc hr hrd => ⟨?_, ?_⟩⟩
  · unfold deserialize
    rw [hcast]
    rfl
  · have hIdx : ∀ ty : Ty, ty.IdxOk false := by
      intro ty
      induction ty with
      | int w => trivial
      | blob s al => trivial
      | ptr p => trivial
      | str => trivial
      | vec sw ix ty ih => exact ih
      | uptr ty ih => exact ih
      | hash ty ih => exact ih
      | opt ty ih => exact ih
      | var ib so s al n ty ih => exact ⟨Or.inr rfl, ih⟩
      | arr n ty ih => exact ih
      | idx ty ih => exact ih
      | agg s al n off ty ih => exact ih
    obtain ⟨mem', e1, e2, _⟩ := h3 ⟨g.host, conversionNecessary g.host m, g.raw, true, false, base, base + bytes.length, fun _ => (0, 0), fun _ => 0#64⟩
      base mem2 ⟨linked_order host g.host m, hb0, Nat.le_refl _, Nat.le_refl _, hb1⟩ hAl (by simp only [hc]; exact hIdx t)
      (fun h => by cases h) hrd
    have hid := deser_id (d := ⟨g.host, conversionNecessary g.host m, g.raw, true, false, base, base + bytes.length, fun _ => (0, 0), fun _ => 0#64⟩)
      hc hr _ _ _ _ e1
    rw [hid, h0] at e2
    exact e2

/-- C38: after a round trip, null and `void` pointers are null, a pointer to an object that was not serialized is null, and a
pointer to a serialized object (indexed value, `unique_ptr` target, inside of an indexed vector; written before or after the
pointer) designates the corresponding object of the copy, which is equal to the original.

`Twin` relates the pointer members of the original and of the copy, and the objects they designate.  (The type of the object
designated is the pointee type, in the case of recursive types up to the depth of unrolling, see `Le`.)

Partial: same conditions as `C37_round_trip_partial`. -/
theorem C38_relinked_partial {host : Endian} {raw : Bool} {m : Mode} {th sh : HashT} {mem : Mem} {t : Ty} {a : Nat}
    (hs : Source host raw m mem t a) (hcast : Mode.isEnabled m Mode.CAST = false) :
    ∃ bytes, serialize host raw m th sh mem t a = .ok bytes ∧ ∀ g base mem2, Reader host raw m mem t a g base bytes.length →
      rd mem2 base bytes.length = bytes → ∃ mem' root, deserialize g m th sh t base bytes.length mem2 = .ok (mem', root) ∧
        ∀ p fa fb, Twin ⟨host, raw, mem⟩ ⟨g.host, g.raw, mem'⟩ t a root (.ptr p) fa fb →
          (p = .void → ptrAt g.host g.raw mem' fb = none) ∧
          (ptrAt host raw mem fa = none → ptrAt g.host g.raw mem' fb = none) ∧
          ∀ n v, p = .obj n → ptrAt host raw mem fa = some v →
            (¬ Serialized ⟨host, raw, mem⟩ t a v → ptrAt g.host g.raw mem' fb = none) ∧
            (Serialized ⟨host, raw, mem⟩ t a v → ∃ w, ptrAt g.host g.raw mem' fb = some w ∧
              (∃ u, Le base u (g.tys n) ∧ Twin ⟨host, raw, mem⟩ ⟨g.host, g.raw, mem'⟩ t a root u v w) ∧
              Same ⟨host, raw, mem⟩ ⟨g.host, g.raw, mem'⟩ (Follows ⟨host, raw, mem⟩ ⟨g.host, g.raw, mem'⟩ t a root) (g.tys n) v w) := by
  obtain ⟨bytes, h1, h2⟩ := C37_round_trip_partial (th := th) (sh := sh) hs hcast
  refine ⟨bytes, h1, fun g base mem2 hr hrd => ?_⟩
  obtain ⟨mem', e1, e2, e3⟩ := h2 g base mem2 hr hrd
  refine ⟨mem', base + dataStart m, e1, fun p fa fb htw => ?_⟩
  generalize base + dataStart m = root at *
  have hsame := Same.twin htw e2
  have hptr := Ptrs.twin htw hr.typed
  unfold Same at hsame
  simp only [Side.ptr] at hsame
  refine ⟨fun hp => ?_, fun hn => ?_, fun n v hp hv => ?_⟩
  · subst hp
    exact hsame
  · rw [hn] at hsame
    cases p <;> exact hsame
  · subst hp
    rw [hv] at hsame
    have hty : HasTy base ⟨host, raw, mem⟩ t a (g.tys n) v := by
      unfold Ptrs at hptr
      rw [show (⟨host, raw, mem⟩ : Side).ptr fa = some v from hv] at hptr
      exact hptr
    have hser := serialized_iff (v := v) t a root e2
    rcases hsame with ⟨w, hw, hc⟩ | ⟨hw, hc⟩
    · refine ⟨fun hns => absurd (hser.2 ⟨w, hc⟩) hns, fun _ => ⟨w, hw, ?_⟩⟩
      obtain ⟨u, hle, htw'⟩ := Corr.twin t hs.wf _ _ hc hty
      exact ⟨⟨u, hle, htw'⟩, hle.same _ _ (Same.twin htw' e2)⟩
    · exact ⟨fun _ => hw, fun hS => by
        obtain ⟨w, hcw⟩ := hser.1 hS
        exact absurd hcw (hc w)⟩

/-! ## C39, C40: arbitrary input -/

/-- C39: checked deserialization of arbitrary bytes either throws or succeeds, and never accesses memory outside of the buffer or
misaligned memory (that would be `Err.ub`); nothing outside of the buffer changes.  With `DEEP_CHECK`, and always if nothing had to be
converted, everything owned by the result lies in the buffer, aligned for its type; with `DEEP_CHECK` the same holds for everything
reachable through pointers, if pointers to different types have different type hashes (`Keyed`).

Partial: pointer types with equal type hashes are mixed up (`C39_type_hash_violated`); after a conversion without `DEEP_CHECK` the result may be unsafe (`C39_overlap_violated`); hash tables only if nothing has to
be converted (`Steady`, see `C39_hash_overwrite_violated`); signed overflow in `offset_ptr::get` is assumed to wrap
(`C39_overflow_violated`); `cstring` is not part of the universe of types. -/
theorem C39_safe_partial {g : Cfg} {m : Mode} {th sh : HashT} {t : Ty} {base len : Nat} {mem : Mem} {K : Nat}
    (hcast : Mode.isEnabled m Mode.CAST = false) (hb0 : 0 < base) (hb1 : base + len < 2 ^ 63) (hw : t.WF)
    (hd : DeepCfg g m t len K) (hS : Steady (g.env m base len) t) :
    deserialize g m th sh t base len mem = .error .exn ∨ ∃ mem', deserialize g m th sh t base len mem = .ok (mem', base + dataStart m) ∧
      (∀ x, x < base ∨ base + len ≤ x → mem' x = mem x) ∧
      (Mode.isEnabled m Mode.DEEP_CHECK = true ∨ (conversionNecessary g.host m = false ∧ g.raw = false) →
        Safe (g.env m base len) mem' t (base + dataStart m)) ∧
      (Mode.isEnabled m Mode.DEEP_CHECK = true → Keyed (g.env m base len) g.tys K →
        ∀ n x, Reach (g.env m base len) mem' g.tys t (base + dataStart m) n x →
        Safe (g.env m base len) mem' (g.tys n) x) := by
  have h := api_tri (th := th) (sh := sh) (t := t) (base := base) (len := len) (mem := mem) hd.checked hcast hd.wrap hb0 hb1 hw hd.fits
    hS hd.below hd.table hd.pos hd.fuel
  cases hr : deserialize g m th sh t base len mem with
  | error x =>
    rw [hr] at h
    have : x = .exn := h
    subst this
    exact Or.inl rfl
  | ok v =>
    rw [hr] at h
    obtain ⟨mem', r⟩ := v
    obtain ⟨h1, h2, h3, h4, h5⟩ := h
    simp only at h1 h2 h3 h4 h5
    subst h1
    exact Or.inr ⟨mem', rfl, h2, h4, h5⟩

/-- C40: the deep check of arbitrary bytes, including cyclic pointer graphs, ends: no path follows more than
(number of pointer types) · (size of the buffer) pointers, so that a larger bound does not change the result.

Partial: types that own objects of their own type only with a limit on the depth (`C82_safe_partial`, `C40_recursive_violated`); hash tables only if
nothing has to be converted (`Steady`). -/
theorem C40_terminates_partial {g : Cfg} {m : Mode} {th sh : HashT} {t : Ty} {base len : Nat} {mem : Mem} {K : Nat}
    (hcast : Mode.isEnabled m Mode.CAST = false) (hb0 : 0 < base) (hb1 : base + len < 2 ^ 63) (hw : t.WF)
    (hd : DeepCfg g m t len K) (hS : Steady (g.env m base len) t) :
    deserialize g m th sh t base len mem ≠ .error .diverge ∧
    deserialize g m th sh t base len mem = deserialize { g with fuel := K * len } m th sh t base len mem := by
  refine ⟨fun h => ?_, ?_⟩
  · rcases C39_safe_partial (th := th) (sh := sh) (mem := mem) hcast hb0 hb1 hw hd hS with h1 | ⟨mem', h1, _⟩
    · rw [h1] at h; cases h
    · rw [h1] at h; cases h
  · have hd' : DeepCfg { g with fuel := K * len } m t len K := ⟨hd.checked, hd.wrap, hd.fits, hd.below, hd.table, hd.pos, Nat.le_refl _⟩
    have hne : deserialize { g with fuel := K * len } m th sh t base len mem ≠ .error .diverge := by
      intro h
      rcases C39_safe_partial (th := th) (sh := sh) (mem := mem) hcast hb0 hb1 hw hd' hS with h1 | ⟨mem', h1, _⟩
      · rw [h1] at h; cases h
      · rw [h1] at h; cases h
    have henv : ({ g with fuel := K * len } : Cfg).env m base len = g.env m base len := rfl
    unfold deserialize at hne ⊢
    rw [hcast] at hne ⊢
    simp only [Bool.false_eq_true, if_false, henv] at hne ⊢
    cases h1 : Hash.check g.host m th sh (rd mem base len) with
    | error x => rfl
    | ok v =>
      rw [h1, ok_bind] at hne
      rw [ok_bind, ok_bind]
      cases h2 : deser (g.env m base len) t (base + dataStart m) mem with
      | error x => rfl
      | ok mem' =>
        rw [h2, ok_bind] at hne
        rw [ok_bind, ok_bind]
        cases hdc : Mode.isEnabled m Mode.DEEP_CHECK with
        | false => rfl
        | true =>
          rw [hdc] at hne
          simp only [if_true] at hne ⊢
          have hst := deepT_stable (d := g.env m base len) (m := mem') (tys := g.tys) (t := t) (a := base + dataStart m) (vis := [])
            (f := K * len) (fun h => hne (by rw [h, error_bind])) (g.fuel - K * len)
          rw [Nat.add_sub_cancel' hd.fuel] at hst
          rw [hst]

/-! ## C41, C55 -/

/-- C41: what was written is accepted by every checked deserialization, also with `DEEP_CHECK`.

Partial: as `C37_round_trip_partial`; see `C41_string_violated` and, for hash tables, `C41_hash_accepted_iff_violated`. -/
theorem C41_accepted_partial {host : Endian} {raw : Bool} {m : Mode} {th sh : HashT} {mem : Mem} {t : Ty} {a : Nat}
    (hs : Source host raw m mem t a) (hcast : Mode.isEnabled m Mode.CAST = false) :
    ∃ bytes, serialize host raw m th sh mem t a = .ok bytes ∧ ∀ g base mem2, Reader host raw m mem t a g base bytes.length →
      rd mem2 base bytes.length = bytes → (deserialize g m th sh t base bytes.length mem2).isOk = true := by
  obtain ⟨bytes, h1, h2⟩ := C37_round_trip_partial (th := th) (sh := sh) hs hcast
  refine ⟨bytes, h1, fun g base mem2 hr hrd => ?_⟩
  obtain ⟨mem', e1, _⟩ := h2 g base mem2 hr hrd
  rw [e1]
  rfl

/-- C55: with offset pointers and no byte order conversion, deserialization never changes memory, whatever the bytes are: read-only
mappings can be loaded in place. -/
theorem C55_read_only (g : Cfg) (m : Mode) (th sh : HashT) (t : Ty) (base len : Nat) (mem mem' : Mem) (root : Nat)
    (hc : conversionNecessary g.host m = false) (hr : g.raw = false)
    (h : deserialize g m th sh t base len mem = .ok (mem', root)) : mem' = mem := by
  unfold deserialize at h
  split at h
  · injection h with h
    injection h with h _
    exact h.symm
  · obtain ⟨_, _, h⟩ := ok_of_bind h
    obtain ⟨m1, h1, h⟩ := ok_of_bind h
    rw [deser_id (d := g.env m base len) hc hr _ _ _ _ h1] at h
    split at h
    · obtain ⟨_, _, h⟩ := ok_of_bind h
      injection h with h
      injection h with h _
      exact h.symm
    · injection h with h
      injection h with h _
      exact h.symm

end Cista.Ser

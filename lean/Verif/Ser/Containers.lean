import Verif.Ser.Plain
import Verif.Multi.VecVec
import Verif.Multi.Fws
import Verif.Multi.NVec
import Verif.MM.Model
import Verif.Misc.FlatMatrix
import Verif.Bits.Model
import Verif.Paged.Model

/-!
# Serialized containers

The layouts of the containers that are built from vectors (with elements and indices that are integers), and how their states, as modelled
for each of them elsewhere, are stored in memory.  Vectors have 32-bit sizes (`vector<T>`, vector.h), so that a vector takes 24 bytes.  The structures
are taken apart by `to_tuple` (serialization.h:147-155), `basic_nvec`, `bitset` and `basic_bitvec` by `cista_members` (nvec.h:514,
bitset.h:35, bitvec.h:47), `dynamic_fws_multimap_base` by its own overloads (serialization.h:243-258, 901-913).
-/
set_option linter.unusedSimpArgs false
set_option linter.unusedSectionVars false

namespace Cista.Ser

open Cista.Arith (Mode)
open Cista.Hash (HashT dataStart)

/-- A list of numbers. -/
def encNums (l : List Nat) : Val := .list (l.map .num)

theorem encNums_inj {l l' : List Nat} (h : encNums l = encNums l') : l = l' := by
  injection h with h
  exact List.map_injective_iff.2 (fun a b e => by injection e) h

/-! ## Layouts -/

/-- A vector of integers of `w` bytes. -/
abbrev ints (w : Nat) : Ty := .vec 4 false (.int w)

theorem ints_wf {w : Nat} (hw : w = 1 ∨ w = 2 ∨ w = 4 ∨ w = 8) : (ints w).WF := ⟨Or.inl rfl, hw⟩
theorem dvd8 {w : Nat} (hw : w = 1 ∨ w = 2 ∨ w = 4 ∨ w = 8) : w ∣ 8 := by rcases hw with h | h | h | h <;> subst h <;> decide
theorem le8 {w : Nat} (hw : w = 1 ∨ w = 2 ∨ w = 4 ∨ w = 8) : w ≤ 8 := by omega
theorem ints_plain {w : Nat} (hw : w = 1 ∨ w = 2 ∨ w = 4 ∨ w = 8) : (ints w).Plain :=
  ⟨rfl, by have := le8 hw; simp only [Ty.sizeof]; omega, dvd8 hw⟩

/-- Two members. -/
def off2 (b : Nat) : Fin 2 → Nat
  | 0 => 0
  | 1 => b
def ty2 (s t : Ty) : Fin 2 → Ty
  | 0 => s
  | 1 => t

theorem agg2_wf {sz al b : Nat} {s t : Ty} (h0 : 0 < sz) (h1 : 0 < al) (h2 : al ∣ sz) (hs : s.WF) (ht : t.WF) (h3 : s.sizeof ≤ b)
    (h4 : b + t.sizeof ≤ sz) (h5 : s.alignof ∣ al) (h6 : t.alignof ∣ al) (h7 : t.alignof ∣ b) : (Ty.agg sz al 2 (off2 b) (ty2 s t)).WF := by
  refine ⟨h0, h1, h2, fun i => ?_, fun i j hij => ?_⟩
  · match i with
    | 0 => exact ⟨hs, by simp only [off2, ty2]; omega, Nat.dvd_zero _, h5⟩
    | 1 => exact ⟨ht, h4, h7, h6⟩
  · match i, j, hij with
    | 0, 1, _ => simp only [off2, ty2]; omega
    | 0, 0, h => exact absurd h (by decide)
    | 1, 0, h => exact absurd h (by decide)
    | 1, 1, h => exact absurd h (by decide)

theorem agg2_plain {sz al b : Nat} {s t : Ty} (h : al ∣ 8) (hs : s.Plain) (ht : t.Plain) : (Ty.agg sz al 2 (off2 b) (ty2 s t)).Plain :=
  ⟨h, fun i => match i with
    | 0 => hs
    | 1 => ht⟩

theorem reads_agg2 {s : Side} {sz al b a : Nat} {t u : Ty} {l : List Val} :
    Reads s (.agg sz al 2 (off2 b) (ty2 t u)) a (.list l) ↔ ∃ v w, l = [v, w] ∧ Reads s t a v ∧ Reads s u (a + b) w := by
  constructor
  · rintro ⟨h1, h2⟩
    match l, h1 with
    | [v, w], _ =>
      obtain ⟨v', e1, r1⟩ := h2 0
      obtain ⟨w', e2, r2⟩ := h2 1
      have e1 : some v = some v' := e1
      have e2 : some w = some w' := e2
      injection e1 with e1; injection e2 with e2
      subst e1; subst e2
      exact ⟨v, w, rfl, r1, r2⟩
  · rintro ⟨v, w, rfl, r1, r2⟩
    exact ⟨rfl, fun i => match i with
      | 0 => ⟨v, rfl, r1⟩
      | 1 => ⟨w, rfl, r2⟩⟩

/-- vecvec.h:432-433: `data_`, `bucket_starts_`. -/
abbrev vecvecTy (w iw : Nat) : Ty := .agg 48 8 2 (off2 24) (ty2 (ints w) (ints iw))

/-- fws_multimap.h:197-200: `data_`, `index_`, `current_start_`, `complete_`. -/
def fwsOff (iw : Nat) : Fin 4 → Nat
  | 0 => 0
  | 1 => 24
  | 2 => 48
  | 3 => 48 + iw
def fwsTys (w iw : Nat) : Fin 4 → Ty
  | 0 => ints w
  | 1 => ints iw
  | 2 => .int iw
  | 3 => .int 1
@[inherit_doc fwsOff]
abbrev fwsTy (w iw : Nat) : Ty := .agg (if iw = 8 then 64 else 56) 8 4 (fwsOff iw) (fwsTys w iw)

/-- mutable_fws_multimap.h:31-35 `index_type` with a `size_type` of `W` bytes. -/
def ixOff (W : Nat) : Fin 3 → Nat
  | 0 => 0
  | 1 => W
  | 2 => 2 * W
@[inherit_doc ixOff]
abbrev ixTy (W : Nat) : Ty := .agg (3 * W) W 3 (ixOff W) fun _ => .int W

/-- mutable_fws_multimap.h:622-625: `index_`, `data_`, `free_buckets_` (one per order `0..K`), `element_count_`. -/
def mapOff (K : Nat) : Fin 4 → Nat
  | 0 => 0
  | 1 => 24
  | 2 => 48
  | 3 => 48 + 24 * (K + 1)
def mapTys (w W K : Nat) : Fin 4 → Ty
  | 0 => .vec 4 false (ixTy W)
  | 1 => ints w
  | 2 => .arr (K + 1) (.vec 4 false (ixTy W))
  | 3 => .int W
@[inherit_doc mapOff]
abbrev mapTy (w W K : Nat) : Ty := .agg (56 + 24 * (K + 1)) 8 4 (mapOff K) (mapTys w W K)

/-- nvec.h:570-571: `index_` (one vector per level `0..N-1`, here `N = L + 1`), `data_`. -/
abbrev nvecTy (w iw L : Nat) : Ty := .agg (24 * (L + 1) + 24) 8 2 (off2 (24 * (L + 1))) (ty2 (.arr (L + 1) (ints iw)) (ints w))

/-- flat_matrix.h:106-107: `n_rows_`, `n_columns_`, `entries_`. -/
def matOff : Fin 3 → Nat
  | 0 => 0
  | 1 => 4
  | 2 => 8
def matTys (w : Nat) : Fin 3 → Ty
  | 0 => .int 4
  | 1 => .int 4
  | 2 => ints w
@[inherit_doc matOff]
abbrev matTy (w : Nat) : Ty := .agg 32 8 3 matOff (matTys w)

/-- bitset.h:316: `blocks_`. -/
abbrev bitsetTy (N : Nat) : Ty := .agg (Bits.numBlocks 64 N * 8) 8 1 (fun _ => 0) fun _ => .arr (Bits.numBlocks 64 N) (.int 8)

/-- bitvec.h:481-482: `size_`, which `cista_members` leaves out, so that it is only copied, and `blocks_`. -/
abbrev bitvecTy : Ty := .agg 32 8 2 (off2 8) (ty2 (.blob 4 4) (ints 8))

theorem vecvec_wf {w iw : Nat} (hw : w = 1 ∨ w = 2 ∨ w = 4 ∨ w = 8) (hi : iw = 1 ∨ iw = 2 ∨ iw = 4 ∨ iw = 8) : (vecvecTy w iw).WF :=
  agg2_wf (by decide) (by decide) (by decide) (ints_wf hw) (ints_wf hi) (Nat.le_refl 24) (Nat.le_refl 48) (Nat.dvd_refl 8) (Nat.dvd_refl 8)
    (show 8 ∣ 24 by decide)

theorem fws_wf {w iw : Nat} (hw : w = 1 ∨ w = 2 ∨ w = 4 ∨ w = 8) (hi : iw = 1 ∨ iw = 2 ∨ iw = 4 ∨ iw = 8) : (fwsTy w iw).WF := by
  have h1 : 48 + iw + 1 ≤ (if iw = 8 then 64 else 56) := by split <;> omega
  refine ⟨by split <;> decide, by decide, by split <;> decide, fun i => ?_, fun i j hij => ?_⟩
  · match i with
    | 0 => exact ⟨ints_wf hw, by show 0 + 24 ≤ _; omega, Nat.dvd_zero _, Nat.dvd_refl 8⟩
    | 1 => exact ⟨ints_wf hi, by show 24 + 24 ≤ _; omega, (by decide : 8 ∣ 24), Nat.dvd_refl 8⟩
    | 2 => exact ⟨hi, by show 48 + iw ≤ _; omega, Nat.dvd_trans (dvd8 hi) (by decide : 8 ∣ 48), dvd8 hi⟩
    | 3 => exact ⟨Or.inl rfl, h1, Nat.one_dvd _, Nat.one_dvd _⟩
  · revert hij
    match i, j with
    | 0, 0 | 0, 1 | 0, 2 | 0, 3 | 1, 0 | 1, 1 | 1, 2 | 1, 3 | 2, 0 | 2, 1 | 2, 2 | 2, 3 | 3, 0 | 3, 1 | 3, 2 | 3, 3 =>
      intro hij
      simp only [fwsOff, fwsTys, Ty.sizeof]
      omega

theorem ix_wf {W : Nat} (hW : W = 4 ∨ W = 8) : (ixTy W).WF := by
  have h : W = 1 ∨ W = 2 ∨ W = 4 ∨ W = 8 := by omega
  refine ⟨by omega, by omega, Nat.dvd_mul_left _ _, fun i => ⟨h, ?_, ?_, Nat.dvd_refl W⟩, fun i j hij => ?_⟩
  · match i with
    | 0 | 1 | 2 => simp only [ixOff, Ty.sizeof]; omega
  · match i with
    | 0 => exact Nat.dvd_zero _
    | 1 => exact Nat.dvd_refl _
    | 2 => exact Nat.dvd_mul_left _ _
  · revert hij
    match i, j with
    | 0, 0 | 0, 1 | 0, 2 | 1, 0 | 1, 1 | 1, 2 | 2, 0 | 2, 1 | 2, 2 =>
      intro hij
      simp only [ixOff, Ty.sizeof]
      omega

theorem map_wf {w W K : Nat} (hw : w = 1 ∨ w = 2 ∨ w = 4 ∨ w = 8) (hW : W = 4 ∨ W = 8) : (mapTy w W K).WF := by
  have h : W = 1 ∨ W = 2 ∨ W = 4 ∨ W = 8 := by omega
  have h8 := le8 h
  refine ⟨by omega, by decide, by omega, fun i => ?_, fun i j hij => ?_⟩
  · match i with
    | 0 => exact ⟨⟨Or.inl rfl, ix_wf hW⟩, by show 0 + 24 ≤ _; omega, Nat.dvd_zero _, Nat.dvd_refl 8⟩
    | 1 => exact ⟨ints_wf hw, by show 24 + 24 ≤ _; omega, (by decide : 8 ∣ 24), Nat.dvd_refl 8⟩
    | 2 => exact ⟨⟨by omega, Or.inl rfl, ix_wf hW⟩, by show 48 + (K + 1) * 24 ≤ _; omega, (by decide : 8 ∣ 48), Nat.dvd_refl 8⟩
    | 3 => exact ⟨h, by show 48 + 24 * (K + 1) + W ≤ _; omega, Nat.dvd_trans (dvd8 h) (by show 8 ∣ 48 + 24 * (K + 1); omega), dvd8 h⟩
  · revert hij
    match i, j with
    | 0, 0 | 0, 1 | 0, 2 | 0, 3 | 1, 0 | 1, 1 | 1, 2 | 1, 3 | 2, 0 | 2, 1 | 2, 2 | 2, 3 | 3, 0 | 3, 1 | 3, 2 | 3, 3 =>
      intro hij
      simp only [mapOff, mapTys, Ty.sizeof]
      omega

theorem nvec_wf {w iw L : Nat} (hw : w = 1 ∨ w = 2 ∨ w = 4 ∨ w = 8) (hi : iw = 1 ∨ iw = 2 ∨ iw = 4 ∨ iw = 8) : (nvecTy w iw L).WF :=
  agg2_wf (by omega) (by decide) (by omega) ⟨by omega, ints_wf hi⟩ (ints_wf hw) (by show (L + 1) * 24 ≤ _; omega) (Nat.le_refl _)
    (Nat.dvd_refl 8) (Nat.dvd_refl 8) (by show 8 ∣ 24 * (L + 1); omega)

theorem mat_wf {w : Nat} (hw : w = 1 ∨ w = 2 ∨ w = 4 ∨ w = 8) : (matTy w).WF := by
  refine ⟨by decide, by decide, by decide, fun i => ?_, fun i j hij => ?_⟩
  · match i with
    | 0 => exact ⟨Or.inr (Or.inr (Or.inl rfl)), by show 0 + 4 ≤ 32; decide, Nat.dvd_zero _, (by decide : 4 ∣ 8)⟩
    | 1 => exact ⟨Or.inr (Or.inr (Or.inl rfl)), by show 4 + 4 ≤ 32; decide, Nat.dvd_refl 4, (by decide : 4 ∣ 8)⟩
    | 2 => exact ⟨ints_wf hw, by show 8 + 24 ≤ _; omega, by show 8 ∣ 8; decide, Nat.dvd_refl 8⟩
  · revert hij
    match i, j with
    | 0, 0 | 0, 1 | 0, 2 | 1, 0 | 1, 1 | 1, 2 | 2, 0 | 2, 1 | 2, 2 =>
      intro hij
      simp only [matOff, matTys, Ty.sizeof]
      omega

theorem numBlocks_pos {N : Nat} (h : 0 < N) : 0 < Bits.numBlocks 64 N := by
  unfold Bits.numBlocks; split <;> omega

theorem bitset_wf {N : Nat} (h : 0 < N) : (bitsetTy N).WF := by
  have := numBlocks_pos h
  refine ⟨by omega, by decide, Nat.dvd_mul_left _ _, fun i => ⟨⟨this, Or.inr (Or.inr (Or.inr rfl))⟩, by simp only [Ty.sizeof]; omega, Nat.dvd_zero _, Nat.dvd_refl 8⟩,
    fun i j hij => by omega⟩

theorem bitvec_wf : bitvecTy.WF :=
  agg2_wf (by decide) (by decide) (by decide) ⟨by decide, by decide, by decide⟩ (ints_wf (by decide)) (by decide) (by decide) (by decide) (by decide) (by decide)

/-! ## States -/

/-- What is kept: the value can be serialized, and wherever, on whatever machine and with whatever checks the bytes are loaded, the loaded object
has `Q`. -/
def Carried (host : Endian) (raw : Bool) (m : Mode) (th sh : HashT) (mem : Mem) (t : Ty) (a : Nat) (Q : Side → Nat → Prop) : Prop :=
  ∃ bytes, serialize host raw m th sh mem t a = .ok bytes ∧ ∀ g base mem2, Loader m g base bytes.length → rd mem2 base bytes.length = bytes →
    ∃ mem', deserialize g m th sh t base bytes.length mem2 = .ok (mem', base + dataStart m) ∧ Q ⟨g.host, g.raw, mem'⟩ (base + dataStart m)

/-- Serialization with a mode that keeps the parts of the header, and without blind casts when loading. -/
structure Usual (m : Mode) : Prop where
  version : Mode.isEnabled m Mode.SKIP_VERSION = false
  integrity : Mode.isEnabled m Mode.SKIP_INTEGRITY = false
  cast : Mode.isEnabled m Mode.CAST = false

theorem demo_usual : Usual demoMode := ⟨by decide, by decide, by decide⟩

theorem carried {host : Endian} {raw : Bool} {m : Mode} {th sh : HashT} {mem : Mem} {t : Ty} {a : Nat} {σ : Type} {enc : σ → Val} {v : σ}
    (eq : σ → Prop) (he : ∀ v', enc v' = enc v ↔ eq v') (hm : Usual m) (hw : t.WF) (hp : t.Plain) (h : Reads ⟨host, raw, mem⟩ t a (enc v)) :
    Carried host raw m th sh mem t a fun s r => ∀ v', Reads s t r (enc v') ↔ eq v' := by
  obtain ⟨bytes, h1, h2⟩ := C130_plain (th := th) (sh := sh) hm.version hm.integrity hm.cast hw hp h
  refine ⟨bytes, h1, fun g base mem2 hl hrd => ?_⟩
  obtain ⟨mem', e1, e2, _⟩ := h2 g base mem2 hl hrd
  exact ⟨mem', e1, fun v' => ⟨fun h' => (he v').1 (h'.unique e2), fun h' => by rw [(he v').2 h']; exact e2⟩⟩

theorem iff_of_inj {σ : Type} {enc : σ → Val} (h : ∀ v v', enc v = enc v' → v = v') (v v' : σ) : enc v' = enc v ↔ v' = v :=
  ⟨h v' v, fun e => by rw [e]⟩

theorem list_inj {α : Type} {enc : α → Val} (h : ∀ v v', enc v = enc v' → v = v') {l l' : List α}
    (e : Val.list (l.map enc) = .list (l'.map enc)) : l = l' := by
  injection e with e
  exact List.map_injective_iff.2 h e

section
open Cista.Multi.VecVec

/-- A vecvec in memory. -/
def encVV (v : VV Nat) : Val := .list [encNums v.data, encNums v.starts]

/-- **C130** A vecvec of integers that is serialized and loaded again has the same elements and the same bucket boundaries. -/
theorem C130_vecvec {host : Endian} {raw : Bool} {m : Mode} {th sh : HashT} {mem : Mem} {a w iw : Nat} {v : VV Nat} (hm : Usual m)
    (hw : w = 1 ∨ w = 2 ∨ w = 4 ∨ w = 8) (hi : iw = 1 ∨ iw = 2 ∨ iw = 4 ∨ iw = 8) (h : Reads ⟨host, raw, mem⟩ (vecvecTy w iw) a (encVV v)) :
    Carried host raw m th sh mem (vecvecTy w iw) a fun s r => ∀ v', Reads s (vecvecTy w iw) r (encVV v') ↔ v' = v :=
  carried _ (iff_of_inj (fun v v' e => by
    cases v; cases v'
    injection e with e
    injection e with e1 e2
    injection e2 with e2 e3
    rw [VV.mk.injEq]
    exact ⟨encNums_inj e1, encNums_inj e2⟩) v) hm (vecvec_wf hw hi) (agg2_plain (Nat.dvd_refl 8) (ints_plain hw) (ints_plain hi)) h

/-- **C130** Whatever was done with a vecvec (by allowed operations) before it was written, whoever loads it iterates over the buckets that the
operations specify. -/
theorem C130_vecvec_history {host : Endian} {raw : Bool} {m : Mode} {th sh : HashT} {mem : Mem} {a w iw : Nat} {v : VV Nat} (hm : Usual m)
    (hw : w = 1 ∨ w = 2 ∨ w = 4 ∨ w = 8) (hi : iw = 1 ∨ iw = 2 ∨ iw = 4 ∨ iw = 8) {dflt : Nat} {ops : List (Op Nat)}
    (ha : Allowed (8 * iw) dflt [] false ops) (hr : run (8 * iw) dflt .empty ops = .ok v)
    (h : Reads ⟨host, raw, mem⟩ (vecvecTy w iw) a (encVV v)) :
    Carried host raw m th sh mem (vecvecTy w iw) a fun s r => ∃ v', Reads s (vecvecTy w iw) r (encVV v') ∧
      v'.size (8 * iw) = (specRun dflt [] ops).length ∧ v'.iterate (8 * iw) = .ok (specRun dflt [] ops) ∧
      ∀ i b, (specRun dflt [] ops)[i]? = some b → v'.bucket i = .ok b := by
  obtain ⟨v0, e0, e1, e2, e3, _⟩ := C22_history_partial (8 * iw) dflt ops ha
  rw [hr] at e0
  injection e0 with e0
  subst e0
  obtain ⟨bytes, h1, h2⟩ := C130_vecvec (th := th) (sh := sh) hm hw hi h
  refine ⟨bytes, h1, fun g base mem2 hl hrd => ?_⟩
  obtain ⟨mem', e4, e5⟩ := h2 g base mem2 hl hrd
  exact ⟨mem', e4, v, (e5 v).2 rfl, e1, e2, fun i b hb => (e3 i b hb).1⟩

/-- A vecvec at 64 with the buckets `[1, 2]`, `[]` and `[3]`. -/
def vvMem : Mem := segs (vecAt 64 256 3 (numsLE 4 [1, 2, 3]) ++ vecAt 88 320 4 (numsLE 2 [0, 2, 2, 3]))

theorem vv_reads : Reads ⟨.little, false, vvMem⟩ (vecvecTy 4 2) 64 (encVV ⟨[1, 2, 3], [0, 2, 2, 3]⟩) := reads_of_readsB (by decide +kernel)

example : Carried .little false demoMode 17#64 23#64 vvMem (vecvecTy 4 2) 64 fun s r => ∃ v', Reads s (vecvecTy 4 2) r (encVV v') ∧
    v'.size 16 = 3 ∧ v'.iterate 16 = .ok [[1, 2], [], [3]] ∧ ∀ i b, [[1, 2], [], [3]][i]? = some b → v'.bucket i = .ok b :=
  C130_vecvec_history (w := 4) (iw := 2) (dflt := 0) (ops := [.emplaceBack [1, 2], .emplaceBack [], .emplaceBack [3]]) demo_usual (by decide)
    (by decide) (by simp [Allowed, Op.Pre, Op.NoBug, Op.dropped, specRun, Op.spec]) (by decide) vv_reads

end

section
open Cista.Multi.Fws

/-- A fws_multimap in memory. -/
def encFM (v : FM Nat) : Val := .list [encNums v.data, encNums v.index, .num v.current, .num (if v.complete then 1 else 0)]

theorem fws_plain {w iw : Nat} (hw : w = 1 ∨ w = 2 ∨ w = 4 ∨ w = 8) (hi : iw = 1 ∨ iw = 2 ∨ iw = 4 ∨ iw = 8) : (fwsTy w iw).Plain :=
  ⟨Nat.dvd_refl 8, fun i => match i with
    | 0 => ints_plain hw
    | 1 => ints_plain hi
    | 2 => dvd8 hi
    | 3 => (by decide : 1 ∣ 8)⟩

/-- **C130** A fws_multimap of integers, finished or not, that is serialized and loaded again has the same elements, the same index and the same
state of the key that is being filled. -/
theorem C130_fws {host : Endian} {raw : Bool} {m : Mode} {th sh : HashT} {mem : Mem} {a w iw : Nat} {v : FM Nat} (hm : Usual m)
    (hw : w = 1 ∨ w = 2 ∨ w = 4 ∨ w = 8) (hi : iw = 1 ∨ iw = 2 ∨ iw = 4 ∨ iw = 8) (h : Reads ⟨host, raw, mem⟩ (fwsTy w iw) a (encFM v)) :
    Carried host raw m th sh mem (fwsTy w iw) a fun s r => ∀ v', Reads s (fwsTy w iw) r (encFM v') ↔ v' = v :=
  carried _ (iff_of_inj (fun v v' e => by
    cases v; cases v'
    injection e with e
    injection e with e1 e
    injection e with e2 e
    injection e with e3 e
    injection e with e4 e
    injection e3 with e3
    injection e4 with e4
    rw [FM.mk.injEq]
    refine ⟨encNums_inj e1, encNums_inj e2, e3, ?_⟩
    rename_i b _ _ _ b'
    cases b <;> cases b' <;> first | rfl | exact absurd e4 nofun) v) hm (fws_wf hw hi) (fws_plain hw hi) h

/-- A fws_multimap at 64 with the keys `[5, 6]` and `[]`, while a third one with the value 7 is being filled. -/
def fmMem : Mem := segs (vecAt 64 256 3 (numsLE 4 [5, 6, 7]) ++ vecAt 88 320 2 (numsLE 4 [0, 2]) ++ [(112, leBytes 4 2), (116, leBytes 1 0)])

example : Carried .little false demoMode 17#64 23#64 fmMem (fwsTy 4 4) 64 fun s r => ∀ v', Reads s (fwsTy 4 4) r (encFM v') ↔
    v' = ⟨[5, 6, 7], [0, 2], 2, false⟩ :=
  C130_fws demo_usual (by decide) (by decide) (reads_of_readsB (by decide +kernel))

end

section
open Cista.MM

/-- An `index_type` in memory. -/
def encIx (x : Ix) : Val := .list [.num x.b, .num x.s, .num x.c]

theorem encIx_inj (x y : Ix) (e : encIx x = encIx y) : x = y := by
  cases x; cases y
  injection e with e
  injection e with e1 e
  injection e with e2 e
  injection e with e3 e
  injection e1 with e1
  injection e2 with e2
  injection e3 with e3
  rw [Ix.mk.injEq]
  exact ⟨e1, e2, e3⟩

/-- A mutable_fws_multimap in memory. -/
def encMap (v : Map Nat) : Val :=
  .list [.list (v.index.map encIx), encNums v.data, .list (v.free.map fun l => .list (l.map encIx)), .num v.count]

theorem ix_plain {W : Nat} (hW : W = 4 ∨ W = 8) : (ixTy W).Plain :=
  ⟨dvd8 (by omega), fun _ => dvd8 (by omega)⟩

theorem ixs_plain {W : Nat} (hW : W = 4 ∨ W = 8) : (Ty.vec 4 false (ixTy W)).Plain :=
  ⟨rfl, by simp only [Ty.sizeof]; omega, ix_plain hW⟩

theorem map_plain {w W K : Nat} (hw : w = 1 ∨ w = 2 ∨ w = 4 ∨ w = 8) (hW : W = 4 ∨ W = 8) : (mapTy w W K).Plain :=
  ⟨Nat.dvd_refl 8, fun i => match i with
    | 0 => ixs_plain hW
    | 1 => ints_plain hw
    | 2 => ixs_plain hW
    | 3 => dvd8 (by omega)⟩

/-- **C130** A mutable_fws_multimap of integers that is serialized and loaded again has the same buckets, the same elements (the unused ones
included), the same free lists and the same number of elements, so that it can also be changed further. -/
theorem C130_mutable_fws {host : Endian} {raw : Bool} {m : Mode} {th sh : HashT} {mem : Mem} {a w W K : Nat} {v : Map Nat} (hm : Usual m)
    (hw : w = 1 ∨ w = 2 ∨ w = 4 ∨ w = 8) (hW : W = 4 ∨ W = 8) (h : Reads ⟨host, raw, mem⟩ (mapTy w W K) a (encMap v)) :
    Carried host raw m th sh mem (mapTy w W K) a fun s r => ∀ v', Reads s (mapTy w W K) r (encMap v') ↔ v' = v :=
  carried _ (iff_of_inj (fun v v' e => by
    cases v; cases v'
    injection e with e
    injection e with e1 e
    injection e with e2 e
    injection e with e3 e
    injection e with e4 e
    injection e4 with e4
    rw [Map.mk.injEq]
    exact ⟨list_inj encIx_inj e1, encNums_inj e2, list_inj (fun _ _ h => list_inj encIx_inj h) e3, e4⟩) v) hm (map_wf hw hW) (map_plain hw hW) h

/-- A mutable_fws_multimap at 64 with the buckets `[5, 6]` (capacity 2) and `[7]`, and a free bucket for two elements. -/
def mmMem : Mem := segs (vecAt 64 512 2 (numsLE 4 [0, 2, 2, 4, 1, 1]) ++ vecAt 88 576 5 (numsLE 2 [5, 6, 0, 0, 7]) ++ vecAt 112 640 0 [] ++
  vecAt 136 704 1 (numsLE 4 [2, 0, 2]) ++ [(160, leBytes 4 3)])

example : Carried .little false demoMode 17#64 23#64 mmMem (mapTy 2 4 1) 64 fun s r => ∀ v', Reads s (mapTy 2 4 1) r (encMap v') ↔
    v' = ⟨[⟨0, 2, 2⟩, ⟨4, 1, 1⟩], [5, 6, 0, 0, 7], [[], [⟨2, 0, 2⟩]], 3⟩ :=
  C130_mutable_fws demo_usual (by decide) (by decide) (reads_of_readsB (by decide +kernel))

end

section
open Cista.Multi.NVec

/-- An nvec of `L + 1` levels in memory. -/
def encNV (L : Nat) (v : NV Nat) : Val := .list [.list ((List.range (L + 1)).map fun l => encNums (v.index l)), encNums v.data]

/-- **C130** An nvec of integers that is serialized and loaded again has the same elements and the same index on every level. -/
theorem C130_nvec {host : Endian} {raw : Bool} {m : Mode} {th sh : HashT} {mem : Mem} {a w iw L : Nat} {v : NV Nat} (hm : Usual m)
    (hw : w = 1 ∨ w = 2 ∨ w = 4 ∨ w = 8) (hi : iw = 1 ∨ iw = 2 ∨ iw = 4 ∨ iw = 8) (h : Reads ⟨host, raw, mem⟩ (nvecTy w iw L) a (encNV L v)) :
    Carried host raw m th sh mem (nvecTy w iw L) a fun s r => ∀ v' : NV Nat, Reads s (nvecTy w iw L) r (encNV L v') ↔
      v'.data = v.data ∧ ∀ l, l ≤ L → v'.index l = v.index l :=
  carried _ (fun v' => by
    constructor
    · intro e
      injection e with e
      injection e with e1 e
      injection e with e2 e
      injection e1 with e1
      refine ⟨encNums_inj e2, fun l hl => encNums_inj ?_⟩
      have := congrArg (fun x => x[l]?) e1
      simpa [List.getElem?_map, List.getElem?_range (show l < L + 1 by omega)] using this
    · rintro ⟨e1, e2⟩
      unfold encNV
      rw [e1, List.map_congr_left fun l hl => by rw [e2 l (by have := List.mem_range.1 hl; omega)]]) hm (nvec_wf hw hi)
    (agg2_plain (Nat.dvd_refl 8) (ints_plain hi) (ints_plain hw)) h

/-- An nvec of two levels at 64: `[[1, 2], [3]]` and `[]`. -/
def nvMem : Mem := segs (vecAt 64 256 3 (numsLE 4 [0, 2, 2]) ++ vecAt 88 320 3 (numsLE 4 [0, 2, 3]) ++ vecAt 112 384 3 (numsLE 8 [1, 2, 3]))

example : Carried .little false demoMode 17#64 23#64 nvMem (nvecTy 8 4 1) 64 fun s r => ∀ v' : NV Nat, Reads s (nvecTy 8 4 1) r (encNV 1 v') ↔
    v'.data = [1, 2, 3] ∧ ∀ l, l ≤ 1 → v'.index l = if l = 0 then [0, 2, 2] else [0, 2, 3] :=
  C130_nvec (v := ⟨[1, 2, 3], fun l => if l = 0 then [0, 2, 2] else [0, 2, 3]⟩) demo_usual (by decide) (by decide) (reads_of_readsB (by decide +kernel))

end

section
open Cista.FlatMatrix

/-- A flat_matrix in memory. -/
def encMat (v : Mat Nat) : Val := .list [.num v.rows, .num v.cols, encNums v.entries]

/-- **C130** A flat_matrix of integers that is serialized and loaded again has the same numbers of rows and columns and the same entries. -/
theorem C130_flat_matrix {host : Endian} {raw : Bool} {m : Mode} {th sh : HashT} {mem : Mem} {a w : Nat} {v : Mat Nat} (hm : Usual m)
    (hw : w = 1 ∨ w = 2 ∨ w = 4 ∨ w = 8) (h : Reads ⟨host, raw, mem⟩ (matTy w) a (encMat v)) :
    Carried host raw m th sh mem (matTy w) a fun s r => ∀ v', Reads s (matTy w) r (encMat v') ↔ v' = v :=
  carried _ (iff_of_inj (fun v v' e => by
    cases v; cases v'
    injection e with e
    injection e with e1 e
    injection e with e2 e
    injection e with e3 e
    injection e1 with e1
    injection e2 with e2
    rw [Mat.mk.injEq]
    exact ⟨e1, e2, encNums_inj e3⟩) v) hm (mat_wf hw)
    ⟨Nat.dvd_refl 8, fun i => match i with
      | 0 => (by decide : 4 ∣ 8)
      | 1 => (by decide : 4 ∣ 8)
      | 2 => ints_plain hw⟩ h

/-- A matrix of two rows and three columns at 64. -/
def matMem : Mem := segs ([(64, leBytes 4 2), (68, leBytes 4 3)] ++ vecAt 72 256 6 (numsLE 2 [1, 2, 3, 4, 5, 600]))

example : Carried .little false demoMode 17#64 23#64 matMem (matTy 2) 64 fun s r => ∀ v', Reads s (matTy 2) r (encMat v') ↔
    v' = ⟨2, 3, [1, 2, 3, 4, 5, 600]⟩ :=
  C130_flat_matrix demo_usual (by decide) (reads_of_readsB (by decide +kernel))

end

section
open Cista.Bits

/-- Blocks of 64 bits. -/
def encBlocks (b : Blocks 64) : Val := .list (b.map fun x => .num x.toNat)

theorem encBlocks_inj (b b' : Blocks 64) (e : encBlocks b = encBlocks b') : b = b' :=
  list_inj (enc := fun x : BitVec 64 => .num x.toNat) (fun v v' e => by injection e with e; exact BitVec.eq_of_toNat_eq e) e

/-- **C130** A bitset that is serialized and loaded again has the same bits. -/
theorem C130_bitset {host : Endian} {raw : Bool} {m : Mode} {th sh : HashT} {mem : Mem} {a N : Nat} {v : Blocks 64} (hm : Usual m)
    (hN : 0 < N) (h : Reads ⟨host, raw, mem⟩ (bitsetTy N) a (.list [encBlocks v])) :
    Carried host raw m th sh mem (bitsetTy N) a fun s r => ∀ v', Reads s (bitsetTy N) r (.list [encBlocks v']) ↔ v' = v :=
  carried (enc := fun v => .list [encBlocks v]) _ (iff_of_inj (fun v v' e => by
    injection e with e
    injection e with e
    exact encBlocks_inj _ _ e) v) hm (bitset_wf hN) ⟨Nat.dvd_refl 8, fun _ => (by decide : 8 ∣ 8)⟩ h

/-- A bitset of 100 bits at 64. -/
def bsMem : Mem := segs [(64, numsLE 8 [5, 2 ^ 35])]

example : Carried .little false demoMode 17#64 23#64 bsMem (bitsetTy 100) 64 fun s r => ∀ v', Reads s (bitsetTy 100) r (.list [encBlocks v']) ↔
    v' = [5#64, 34359738368#64] :=
  C130_bitset demo_usual (by decide) (reads_of_readsB (by decide +kernel))

end

end Cista.Ser

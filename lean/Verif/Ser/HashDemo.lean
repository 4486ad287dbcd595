import Verif.Ser.Demo
import Verif.HS.Check

/-!
# Hash tables as members

The hash tables of `HS` in memory, and a concrete value with a table.
-/
set_option linter.unusedSimpArgs false
set_option linter.unusedSectionVars false

namespace Cista.Ser

open Cista.Arith (Mode)
open Cista.Hash (HashT dataStart)

variable {K V : Type}

/-- The memory at `a` is the table `st` of `HS` (hash_storage.h:671-674): the counters, the entries with the control bytes behind them;
the slots in use hold live values. -/
structure Holds (e : SEnv) (t : Ty) (a : Nat) (st : HS.HS K V) : Prop where
  size : rdN e.host e.mem (a + 16) 8 = st.size
  cap : rdN e.host e.mem (a + 24) 8 = st.cap
  growth : rdN e.host e.mem (a + 32) 8 = st.growth
  null : st.block = false → ptrAt e.host e.raw e.mem a = none
  alloc : st.block = true → ∃ el, ptrAt e.host e.raw e.mem a = some el ∧ ptrAt e.host e.raw e.mem (a + 8) = some (el + st.cap * t.sizeof) ∧
    ctl e.mem (el + st.cap * t.sizeof) (st.cap + 9) = st.ctrl.take (st.cap + 9) ∧
    ∀ i en, st.entries[i]? = some (some en) → Ok e t (el + i * t.sizeof)

theorem checkState_entries (st : HS.HS K V) :
    HS.checkState (HS.serialized st) = HS.checkState (⟨st.ctrl, [], st.size, st.cap, st.growth, st.block, false⟩ : HS.HS Nat Nat) := rfl

theorem layout_length (S : List Nat) : (HS.layout S).length = S.length + 9 := by
  unfold HS.layout
  simp only [List.length_append, List.length_cons, List.length_take, List.length_replicate]
  omega

/-- Tables with the invariant of `HS` whose growth counter is accepted are live values. -/
theorem Holds.ok [DecidableEq K] {hash : K → Nat} {N : Nat} {st : HS.HS K V} {S : List Nat} (h : HS.Inv hash N st S) (hN : N < 2 ^ 60)
    (hd : S.count HS.DELETED = 0) {e : SEnv} {t : Ty} {a : Nat} (hm : Holds e t a st) : Ok e (.hash t) a := by
  obtain ⟨rest, hlay⟩ := h.lay
  have hcap := h.cap
  have hblk := h.blk
  have hsz := h.size
  have hI : HS.Inv hash N { st with ctrl := HS.layout S } S :=
    ⟨⟨[], by simp⟩, h.cap, h.core, h.size, h.cnt, h.blk, h.bnd, h.cbnd⟩
  obtain ⟨g, _, h3, _⟩ := HS.C41_hash_accepted_iff_violated hI hN
  have hck := h3.2 (Or.inl hd)
  rw [checkState_entries] at hck
  have htab := checkState_tri (cs := HS.layout S) (cap := st.cap) (size := st.size) (growth := st.growth) (b := st.block)
    (by rw [layout_length, hcap])
  rw [hck] at htab
  have htab : HTable (HS.layout S) st.cap st.size st.growth := htab
  unfold Ok
  rw [hm.cap, hm.size, hm.growth]
  by_cases hc : st.cap = 0
  · left
    refine ⟨hm.null (by rw [hblk]; simp [hc]), hc, ?_⟩
    have := htab.used
    rw [hc] at this
    simpa using this
  · right
    obtain ⟨el, k1, k2, k3, k4⟩ := hm.alloc (by rw [hblk]; simp [hc])
    have htake : st.ctrl.take (st.cap + 9) = HS.layout S := by
      rw [hlay, hcap, ← layout_length, List.take_left]
    refine ⟨el, k1, k2, by omega, by rw [k3, htake]; exact htab, fun i hi hf => ?_⟩
    have hget := ctl_get (m := e.mem) (c := el + st.cap * t.sizeof) (n := st.cap + 9) (i := i) (by omega)
    have hS : S[i]? = some (e.mem (el + st.cap * t.sizeof + i)).toNat := by
      rw [k3, htake] at hget
      unfold HS.layout at hget
      rwa [List.getElem?_append_left (by omega)] at hget
    obtain ⟨en, hen⟩ := h.core.occ i _ hS hf
    exact k4 i en hen

/-- C41 for members that are hash tables: a table built by any history without erasure is a live value, wherever it is in memory, so
that `C37_round_trip_partial` and `C41_accepted_partial` apply to values containing it.

Partial: erasures may leave tombstones that `deserialize` rejects (`C41_hash_accepted_iff_violated`). -/
theorem C41_hash_member_partial [DecidableEq K] (hash : K → Nat) (d : V) (ops : List (HS.Op K V)) (hlen : ops.length < 2 ^ 60)
    (ha : HS.Allowed d [] ops) (hno : ops.all HS.Op.noErase = true) :
    ∃ st outs, HS.run hash d HS.HS.init ops = .ok (st, outs) ∧ ∀ e t a, Holds e t a st → Ok e (.hash t) a := by
  obtain ⟨st, S, h1, h2, _, hd⟩ := HS.run_ok' ops (HS.Inv.init hash (V := V) false) (List.Perm.refl _) (by omega) ha
  exact ⟨st, _, h1, fun e t a hm => hm.ok h2 (by omega) (by have := hd hno; simpa using this)⟩

/-! ## A concrete table -/

/-- Two insertions into an empty set. -/
def tabOps : List (HS.Op Nat Nat) := [.emplace 5 1, .emplace 7 1]

/-- The hash function of the demonstration. -/
def tabHash (k : Nat) : Nat := k * 2654435761 % 4294967296

/-- `hash_set<int32>` at address 64 with the keys 5 and 7: three slots at 128, control bytes at 140. -/
def tabMem : Mem := segs
  [(64, encI .little 64), (72, encI .little 68), (80, leBytes 8 2), (88, leBytes 8 3), (96, leBytes 8 1), (104, [1#8]),
   (128, leBytes 4 5 ++ leBytes 4 7 ++ leBytes 4 99), (140, [117#8, 87#8, 128#8, 255#8, 117#8, 87#8, 128#8, 128#8, 128#8, 128#8, 128#8, 128#8])]

attribute [irreducible] tabMem

theorem tab_el : ptrAt .little false tabMem 64 = some 128 := by decide +kernel
theorem tab_cap : rdN .little tabMem 88 8 = 3 := by decide +kernel
theorem tab_e0 : rdN .little tabMem 128 4 = 5 := by decide +kernel
theorem tab_e1 : rdN .little tabMem 132 4 = 7 := by decide +kernel
theorem tab_full : Full tabMem 140 0 ∧ Full tabMem 140 1 := by decide +kernel

/-- The result of the two insertions. -/
def tabSt : HS.HS Nat Nat := ⟨[117, 87, 128, 255, 117, 87, 128, 128, 128, 128, 128, 128], [some (5, 1), some (7, 1), none], 2, 3, 1, true, true⟩

theorem tab_run : (match HS.run tabHash 0 HS.HS.init tabOps with
    | .ok r => decide (r.1.ctrl = tabSt.ctrl ∧ r.1.entries = tabSt.entries ∧ r.1.size = 2 ∧ r.1.cap = 3 ∧ r.1.growth = 1 ∧
        r.1.block = true ∧ r.1.self = true)
    | .error _ => false) = true := by decide +kernel

theorem tab_holds (m : Mode) : Holds (srcEnv .little false m tabMem) (.int 4) 64 tabSt := by
  refine ⟨?_, ?_, ?_, fun h => (by cases h), fun _ => ⟨128, ?_, ?_, ?_, fun _ _ _ => trivial⟩⟩
  · show rdN .little tabMem 80 8 = 2; decide +kernel
  · show rdN .little tabMem 88 8 = 3; decide +kernel
  · show rdN .little tabMem 96 8 = 1; decide +kernel
  · show ptrAt .little false tabMem 64 = some 128; decide +kernel
  · show ptrAt .little false tabMem 72 = some 140; decide +kernel
  · show ctl tabMem 140 12 = tabSt.ctrl; decide +kernel

theorem tab_live (m : Mode) : Ok (srcEnv .little false m tabMem) (.hash (.int 4)) 64 := by
  obtain ⟨st, outs, h1, h2⟩ := C41_hash_member_partial tabHash 0 tabOps (by decide) (by simp [tabOps, HS.Allowed, HS.Op.Pre]) (by decide)
  have h3 := tab_run
  rw [h1] at h3
  have h4 := of_decide_eq_true h3
  obtain ⟨a1, a2, a3, a4, a5, a6, a7⟩ := h4
  have : st = tabSt := by
    obtain ⟨b1, b2, b3, b4, b5, b6, b7⟩ := st
    dsimp only at a1 a2 a3 a4 a5 a6 a7
    subst a1; subst a2; subst a3; subst a4; subst a5; subst a6; subst a7
    rfl
  subst this
  exact h2 _ _ _ (tab_holds m)

theorem tab_obj {ex : Bool} {el n al : Nat} (h : Obj ⟨.little, false, tabMem⟩ (.hash (.int 4)) 64 ex el n al) : False := by
  obtain ⟨_, _, _, _, _, _, _, h⟩ := h
  exact h

theorem tab_source (m : Mode) (h1 : Mode.isEnabled m Mode.SKIP_VERSION = false) (h2 : Mode.isEnabled m Mode.SKIP_INTEGRITY = false) :
    Source .little false m tabMem (.hash (.int 4)) 64 := by
  refine ⟨h1, h2, by simp [Ty.WF], ?_, tab_live m, fun el n al el' n' al' h => (tab_obj h).elim⟩
  show 8 ∣ dataStart m
  unfold dataStart Hash.integrityStart
  split <;> split <;> decide

theorem tab_deepCfg (g : Cfg) (m : Mode) (len : Nat) (hm : Mode.isEnabled m Mode.UNCHECKED = false) (hg : g.strict = false)
    (hp : ∀ n, 0 < (g.tys n).alignof) : DeepCfg g m (.hash (.int 4)) len 0 :=
  ⟨hm, hg, ⟨by decide, trivial⟩, trivial, fun n h => absurd h (Nat.not_lt_zero n), hp, by omega⟩

theorem tab_reader (base len : Nat) (h0 : 0 < base) (h1 : base < 2 ^ 62) (h8 : 8 ∣ base) (hl : len ≤ 1000) :
    Reader .little false demoMode tabMem (.hash (.int 4)) 64 demoCfg base len :=
  ⟨h0, by omega, ⟨h8, (Nat.dvd_trans (by decide) h8 : 4 ∣ base)⟩, trivial, fun _ _ _ _ _ _ _ => trivial,
    fun _ => ⟨0, tab_deepCfg _ _ _ (by decide) rfl (fun _ => (by decide : 0 < 4))⟩⟩

/-- C37 applied: the table is loaded on a machine of the other byte order and with the other kind of pointers. -/
example : ∃ bytes, serialize .little false demoMode 17#64 23#64 tabMem (.hash (.int 4)) 64 = .ok bytes ∧
    ∃ mem', deserialize demoCfg demoMode 17#64 23#64 (.hash (.int 4)) 4096 bytes.length (segs [(4096, bytes)]) = .ok (mem', 4112) ∧
      rdN .big mem' (4112 + 24) 8 = 3 ∧ ∃ y, ptrAt .big true mem' 4112 = some y ∧ rdN .big mem' y 4 = 5 ∧ rdN .big mem' (y + 4) 4 = 7 := by
  obtain ⟨bytes, h1, h2⟩ := C37_round_trip_partial (th := 17#64) (sh := 23#64) (tab_source demoMode (by decide) (by decide)) (by decide)
  have hl : (match serialize .little false demoMode 17#64 23#64 tabMem (.hash (.int 4)) 64 with
    | .ok bs => bs.length | .error _ => 0) = 88 := by decide +kernel
  rw [h1] at hl
  obtain ⟨mem', h3, h4, _⟩ := h2 demoCfg 4096 (segs [(4096, bytes)])
    (tab_reader 4096 bytes.length (by decide) (by decide) (by decide) (by simp only at hl; omega)) (rd_wr_same _ _ _)
  refine ⟨bytes, h1, mem', h3, ?_⟩
  obtain ⟨_, k2, _, _, ⟨k, _⟩ | ⟨x, y, k5, k6, _, _, _, k7⟩⟩ := h4
  · cases tab_el.symm.trans k
  · have hx := tab_el.symm.trans k5
    injection hx with hx
    have hc : (⟨.little, false, tabMem⟩ : Side).nat (64 + 24) 8 = 3 := tab_cap
    rw [hc, ← hx] at k7
    refine ⟨k2.trans tab_cap, y, k6, ?_, ?_⟩
    · have := k7 0 (by decide) tab_full.1
      rw [Nat.zero_mul, Nat.add_zero, Nat.add_zero] at this
      exact Eq.trans this tab_e0
    · have := k7 1 (by decide) tab_full.2
      exact Eq.trans this tab_e1

/-- C39 applies to every memory content: no conversion is needed. -/
example (mem : Mem) (th sh : HashT) (m : Mode) (hm : m = Mode.DEEP_CHECK ∨ m = Mode.NONE) :
    deserialize ⟨.little, false, false, fun _ => .int 4, 100, fun _ => 0#64⟩ m th sh (.hash (.int 4)) 4096 88 mem ≠ .error .ub := by
  intro h
  rcases C39_safe_partial (g := ⟨.little, false, false, fun _ => .int 4, 100, fun _ => 0#64⟩) (m := m) (th := th) (sh := sh) (mem := mem) (K := 0)
    (by rcases hm with rfl | rfl <;> decide) (by decide : 0 < 4096) (by decide) (by simp [Ty.WF])
    (tab_deepCfg _ _ 88 (by rcases hm with rfl | rfl <;> decide) rfl (fun _ => (by decide : 0 < 4)))
    (Or.inr ⟨by rcases hm with rfl | rfl <;> decide, rfl⟩) with h1 | ⟨_, h1, _⟩ <;> rw [h1] at h <;> cases h

end Cista.Ser

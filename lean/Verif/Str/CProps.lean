import Verif.Str.CModel
import Verif.Str.Lemmas

set_option linter.unusedSimpArgs false

/-! # C17 — C strings -/
namespace Cista.CStr

open Cista.Str (Ch SMem Loc slice readLoc Var Ext upd upd_same upd_ne upd_upd upd_self)

/-! ## Length classification -/

theorem remaining_short {len : Nat} (h : len ≤ 15) : remaining len = 15 - len := by
  have h1 : (15#32 - BitVec.ofNat 32 len).toInt = 15 - len := by
    rw [BitVec.toInt_eq_toNat_cond]
    simp only [BitVec.toNat_sub, BitVec.toNat_ofNat]
    split <;> omega
  unfold remaining
  rw [h1, BitVec.toInt_ofInt, Int.bmod_def]
  split <;> omega

theorem remaining_long {len : Nat} (h1 : 15 < len) (h2 : len < 2 ^ 31 + 16) : remaining len = -1 := by
  have h1 : (15#32 - BitVec.ofNat 32 len).toInt < 0 := by
    rw [BitVec.toInt_eq_toNat_cond]
    simp only [BitVec.toNat_sub, BitVec.toNat_ofNat]
    split <;> omega
  unfold remaining
  rw [BitVec.toInt_ofInt, Int.bmod_def]
  split <;> omega

theorem remaining_huge {len : Nat} (h1 : 2 ^ 31 + 16 ≤ len) (h2 : len < 2 ^ 32) :
    remaining len = if (2 ^ 32 + 15 - len) % 256 < 128 then (((2 ^ 32 + 15 - len) % 256 : Nat) : Int)
      else (((2 ^ 32 + 15 - len) % 256 : Nat) : Int) - 256 := by
  have h1 : (15#32 - BitVec.ofNat 32 len).toInt = ((2 ^ 32 + 15 - len : Nat) : Int) := by
    rw [BitVec.toInt_eq_toNat_cond]
    simp only [BitVec.toNat_sub, BitVec.toNat_ofNat]
    split <;> omega
  unfold remaining
  rw [h1, BitVec.toInt_ofInt, Int.bmod_def]
  split <;> split <;> omega

/-- Lengths that are stored correctly. -/
def GoodLen (len : Nat) : Prop :=
  len < 2 ^ 31 + 16 ∨ (len + 1 < 2 ^ 32 ∧ 128 ≤ (2 ^ 32 + 15 - len) % 256)

theorem GoodLen.lt {len : Nat} (h : GoodLen len) : len + 1 < 2 ^ 32 := by
  unfold GoodLen at h; omega

theorem GoodLen.neg {len : Nat} (h : GoodLen len) (h1 : 15 < len) : remaining len < 0 := by
  by_cases h2 : len < 2 ^ 31 + 16
  · rw [remaining_long h1 h2]; omega
  · rcases h with h | ⟨h, h3⟩
    · omega
    · rw [remaining_huge (by omega) (by omega), if_neg (by omega)]; omega

/-! ## Invariant -/

inductive RepC (ext : Ext 8) (mem : SMem 8) : CS → Var 8 → Prop where
  | sso (t : List Byte) (o : Bool) (hl : t.length ≤ 15) (ho : o = false → t = []) :
    RepC ext mem (.sso (t ++ List.replicate (15 - t.length) 0#8) (15 - t.length)) ⟨t, o⟩
  | owned (b : Nat) (t : List Byte) (hb : mem.blocks b = some (t ++ [0#8])) (he : ext b = none)
    (hl : 15 < t.length) (hg : t.length + 1 < 2 ^ 32) : RepC ext mem (.heap true t.length (.mem b 0)) ⟨t, true⟩
  | ref (p : Loc) (t : List Byte)
    (h : t = [] ∨ ∃ b off cs, p = .mem b off ∧ ext b = some cs ∧ off + t.length ≤ cs.length ∧
      slice cs off t.length = t) (hlt : t.length < 2 ^ 32) : RepC ext mem (.heap false t.length p) ⟨t, false⟩

structure WF (ext : Ext 8) (st : CSt) (m : Nat → Var 8) : Prop where
  rep : ∀ x, RepC ext st.mem (st.strs x) (m x)
  extLive : ∀ b cs, ext b = some cs → st.mem.blocks b = some cs
  fresh : ∀ b, st.mem.next ≤ b → st.mem.blocks b = none
  inj : ∀ x y b n k i j, st.strs x = .heap true n (.mem b i) → st.strs y = .heap true k (.mem b j) → x = y
  owned : ∀ b, st.mem.blocks b ≠ none → ext b ≠ none ∨ ∃ x n, st.strs x = .heap true n (.mem b 0)

@[simp] theorem put_same (st : CSt) (d : Nat) (s : CS) : (st.put d s).strs d = s := by simp [CSt.put]
theorem put_ne (st : CSt) {d x : Nat} (s : CS) (h : x ≠ d) : (st.put d s).strs x = st.strs x := by
  simp [CSt.put, h]
@[simp] theorem put_mem (st : CSt) (d : Nat) (s : CS) : (st.put d s).mem = st.mem := rfl

theorem RepC.frame {ext : Ext 8} {mem mem' : SMem 8} {s : CS} {v : Var 8} (r : RepC ext mem s v)
    (h : ∀ b n, s = .heap true n (.mem b 0) → mem'.blocks b = mem.blocks b) : RepC ext mem' s v := by
  cases r with
  | sso t o hl ho => exact .sso t o hl ho
  | owned b t hb he hl hg => exact .owned b t (by rw [h b _ rfl, hb]) he hl hg
  | ref p t h1 hlt => exact .ref p t h1 hlt

theorem WF.size {ext : Ext 8} {st : CSt} {m : Nat → Var 8} (h : WF ext st m) (x : Nat) :
    st.size x = (m x).text.length := by
  have r := h.rep x
  unfold CSt.size
  generalize st.strs x = s at r
  cases hv : m x with
  | mk t o =>
    rw [hv] at r
    cases r with
    | sso _ _ hl hso => simp only []; omega
    | owned => rfl
    | ref => rfl

theorem WF.lt {ext : Ext 8} {st : CSt} {m : Nat → Var 8} (h : WF ext st m) (x : Nat) :
    (m x).text.length < 2 ^ 32 := by
  have r := h.rep x
  generalize st.strs x = s at r
  cases hv : m x with
  | mk t o =>
    rw [hv] at r
    cases r with
    | sso _ _ hl hso => simp only; omega
    | owned b t hb he hl hg => simp only; omega
    | ref p t h hlt => exact hlt

theorem WF.readSub {ext : Ext 8} {st : CSt} {m : Nat → Var 8} (h : WF ext st m) (x : Nat) {off n : Nat}
    (hle : off + n ≤ (m x).text.length) (hn : 0 < n) :
    st.read ((st.data x).add off) n = .ok (slice (m x).text off n) := by
  have r := h.rep x
  unfold CSt.data
  generalize hs : st.strs x = s at r
  cases hv : m x with
  | mk t o =>
    rw [hv] at r hle
    simp only at hle
    cases r with
    | sso _ _ hl hso =>
      simp only [Loc.add, CSt.read, readLoc, CSt.inl, hs]
      rw [if_pos (by simp; omega)]
      simp only [slice]
      rw [Nat.zero_add, List.drop_append, List.take_append_of_le_length (by simp; omega)]
    | owned b t hb he hl hg =>
      simp only [Loc.add, CSt.read, readLoc, hb]
      rw [if_pos (by simp; omega)]
      simp only [slice]
      rw [Nat.zero_add, List.drop_append_of_le_length (by omega), List.take_append_of_le_length (by simp; omega)]
    | ref p t h1 hlt =>
      rcases h1 with rfl | ⟨b, o', cs, rfl, he, hle', ht⟩
      · simp at hle; omega
      · simp only [Loc.add, CSt.read, readLoc, h.extLive b cs he]
        rw [if_pos (by omega)]
        have := Str.slice_slice cs o' t.length off n hle
        rw [ht] at this
        rw [this]

theorem WF.read {ext : Ext 8} {st : CSt} {m : Nat → Var 8} (h : WF ext st m) (x : Nat)
    (hn : 0 < (m x).text.length) : st.read (st.data x) (m x).text.length = .ok (m x).text := by
  have := h.readSub x (off := 0) (n := (m x).text.length) (by omega) hn
  rw [Str.add_zero] at this
  rw [this]; simp [slice]

theorem WF.view {ext : Ext 8} {st : CSt} {m : Nat → Var 8} (h : WF ext st m) (x : Nat) :
    st.view x = .ok (m x).text := by
  unfold CSt.view
  rw [h.size]
  split
  · next h0 => rw [List.length_eq_zero_iff.1 h0]
  · exact h.read x (by omega)

theorem WF.terminator {ext : Ext 8} {st : CSt} {m : Nat → Var 8} (h : WF ext st m) (x : Nat)
    (ho : (m x).own = true) : st.terminator x = .ok 0#8 := by
  have r := h.rep x
  have hsz := h.size x
  unfold CSt.terminator
  rw [hsz]
  generalize st.strs x = s at r
  cases hv : m x with
  | mk t o =>
    rw [hv] at r ho
    simp only at ho
    subst ho
    cases r with
    | sso _ _ hl hso =>
      simp only []
      have : (t ++ List.replicate (15 - t.length) 0#8 ++ [BitVec.ofInt 8 (15 - (t.length : Int))])[t.length]? =
          some 0#8 := by
        by_cases h15 : t.length = 15
        · rw [h15]
          simp only [Nat.sub_self, List.replicate_zero, List.append_nil]
          rw [List.getElem?_append_right (by omega)]
          simp [h15]
        · rw [List.append_assoc, List.getElem?_append_right (by omega), Nat.sub_self,
            List.getElem?_append_left (by simp; omega), List.getElem?_replicate, if_pos (by omega)]
      rw [this]
    | owned b t hb he hl hg =>
      simp only [hb, Nat.zero_add]
      rw [List.getElem?_append_right (by omega)]
      simp

theorem WF.put {ext : Ext 8} {st : CSt} {m : Nat → Var 8} (h : WF ext st m) {d : Nat}
    (hd : ∀ n b o, st.strs d ≠ .heap true n (.mem b o)) {s : CS} {v : Var 8}
    (hs : ∀ n b o, s ≠ .heap true n (.mem b o)) (r : RepC ext st.mem s v) :
    WF ext (st.put d s) (upd m d v) where
  rep := by
    intro x
    by_cases hx : x = d
    · subst hx; simpa using r
    · rw [put_ne _ _ hx, upd_ne _ _ hx]; exact h.rep x
  extLive := h.extLive
  fresh := h.fresh
  inj := by
    intro x y b n k i j hx hy
    by_cases hxd : x = d
    · subst hxd; rw [put_same] at hx; exact absurd hx (hs n b i)
    · by_cases hyd : y = d
      · subst hyd; rw [put_same] at hy; exact absurd hy (hs k b j)
      · rw [put_ne _ _ hxd] at hx; rw [put_ne _ _ hyd] at hy; exact h.inj x y b n k i j hx hy
  owned := by
    intro b hb
    rcases h.owned b hb with h1 | ⟨x, n, hx⟩
    · exact Or.inl h1
    · have hxd : x ≠ d := by intro e; subst e; exact hd n b 0 hx
      exact Or.inr ⟨x, n, by rw [put_ne _ _ hxd]; exact hx⟩

theorem rep_init (ext : Ext 8) (mem : SMem 8) (o : Bool) : RepC ext mem .init ⟨[], o⟩ :=
  RepC.sso (ext := ext) (mem := mem) [] o (by simp) (fun _ => rfl)

theorem reset_ok {ext : Ext 8} {st : CSt} {m : Nat → Var 8} (h : WF ext st m) (d : Nat) (o : Bool) :
    ∃ st', reset st d = .ok st' ∧ WF ext st' (upd m d ⟨[], o⟩) ∧ st'.strs d = .init ∧
      (∀ x, x ≠ d → st'.strs x = st.strs x) := by
  have r := h.rep d
  generalize hs : st.strs d = s at r
  have hother : (∀ n b o, s ≠ .heap true n (.mem b o)) →
      reset st d = .ok (st.put d .init) → ∃ st', reset st d = .ok st' ∧ WF ext st' (upd m d ⟨[], o⟩) ∧
      st'.strs d = .init ∧ (∀ x, x ≠ d → st'.strs x = st.strs x) := by
    intro h1 h2
    refine ⟨_, h2, h.put (by rw [hs]; exact h1) (by intro n b o e; cases e) (rep_init _ _ o), by simp, ?_⟩
    intro x hx; exact put_ne _ _ hx
  cases hv : m d with
  | mk t ow =>
    rw [hv] at r
    cases r with
    | sso _ _ hl hso => exact hother (by intro n b o e; cases e) (by simp [reset, hs])
    | ref p t h1 hlt => exact hother (by intro n b o e; cases e) (by simp [reset, hs])
    | owned b t hb he hl hg =>
      refine ⟨{ st with mem := st.mem.setBlk b none }.put d .init,
        by simp [reset, hs, SMem.free, hb, bind, Except.bind, pure, Except.pure], ?_, by simp, ?_⟩
      · refine { rep := ?_, extLive := ?_, fresh := ?_, inj := ?_, owned := ?_ }
        · intro x
          by_cases hx : x = d
          · subst hx; simp only [put_same, upd_same]; exact rep_init _ _ o
          · rw [put_ne _ _ hx, upd_ne _ _ hx]
            refine (h.rep x).frame ?_
            intro b' n hx'
            have : b' ≠ b := by
              intro e; subst e; exact hx (h.inj x d b' _ _ _ _ hx' hs)
            simp [SMem.setBlk, this]
        · intro b' cs' he'
          have : b' ≠ b := by intro e; subst e; rw [he] at he'; cases he'
          simp only [put_mem, SMem.setBlk, if_neg this]; exact h.extLive b' cs' he'
        · intro b' hb'
          simp only [put_mem, SMem.setBlk]
          split
          · rfl
          · exact h.fresh b' hb'
        · intro x y b' n k i j hx hy
          by_cases hxd : x = d
          · subst hxd; rw [put_same] at hx; cases hx
          · by_cases hyd : y = d
            · subst hyd; rw [put_same] at hy; cases hy
            · rw [put_ne _ _ hxd] at hx; rw [put_ne _ _ hyd] at hy; exact h.inj x y b' n k i j hx hy
        · intro b' hb'
          simp only [put_mem, SMem.setBlk] at hb'
          split at hb'
          · exact absurd rfl hb'
          · next hbb =>
            rcases h.owned b' hb' with h1 | ⟨x, n, hx⟩
            · exact Or.inl h1
            · have hxd : x ≠ d := by
                intro e; subst e; rw [hs] at hx; cases hx; exact hbb rfl
              exact Or.inr ⟨x, n, by rw [put_ne _ _ hxd]; exact hx⟩
      · intro x hx; exact put_ne _ _ hx

theorem not_owner_init (st : CSt) (d : Nat) (h : st.strs d = .init) :
    ∀ n b o, st.strs d ≠ .heap true n (.mem b o) := by
  intro n b o e; rw [h] at e; cases e

theorem WF.putOwned {ext : Ext 8} {st : CSt} {m : Nat → Var 8} (h : WF ext st m) {d : Nat}
    (hd : ∀ n b o, st.strs d ≠ .heap true n (.mem b o)) (t : List Byte) (hl : 15 < t.length)
    (hg : t.length + 1 < 2 ^ 32) :
    WF ext ({ st with mem := (st.mem.alloc (t ++ [0#8])).1 }.put d
      (.heap true t.length (.mem (st.mem.alloc (t ++ [0#8])).2 0))) (upd m d ⟨t, true⟩) := by
  have hnext : ext st.mem.next = none := by
    cases he : ext st.mem.next with
    | none => rfl
    | some c => have := h.extLive _ _ he; rw [h.fresh _ (Nat.le_refl _)] at this; cases this
  have hown : ∀ x n b i, st.strs x = .heap true n (.mem b i) → b < st.mem.next := by
    intro x n b i hx
    have r := h.rep x
    rw [hx] at r
    generalize m x = v at r
    cases r with
    | owned _ t hb he hl hg =>
      by_cases hb' : b < st.mem.next
      · exact hb'
      · rw [h.fresh b (by omega)] at hb; cases hb
  refine { rep := ?_, extLive := ?_, fresh := ?_, inj := ?_, owned := ?_ }
  · intro x
    by_cases hx : x = d
    · subst hx
      simp only [put_same, upd_same]
      exact .owned _ t (by simp [SMem.alloc]) hnext hl hg
    · rw [put_ne _ _ hx, upd_ne _ _ hx]
      refine (h.rep x).frame ?_
      intro b n hx'
      have := hown x n b 0 hx'
      simp only [put_mem, SMem.alloc]
      rw [if_neg (by omega)]
  · intro b c he
    have : b ≠ st.mem.next := by intro e; subst e; rw [hnext] at he; cases he
    simp only [put_mem, SMem.alloc, if_neg this]; exact h.extLive b c he
  · intro b hb
    simp only [put_mem, SMem.alloc] at hb ⊢
    rw [if_neg (by omega)]; exact h.fresh b (by omega)
  · intro x y b n k i j hx hy
    by_cases hxd : x = d
    · by_cases hyd : y = d
      · rw [hxd, hyd]
      · subst hxd; rw [put_same] at hx; rw [put_ne _ _ hyd] at hy
        have := hown y k b j hy
        simp only [SMem.alloc] at hx; cases hx; omega
    · by_cases hyd : y = d
      · subst hyd; rw [put_same] at hy; rw [put_ne _ _ hxd] at hx
        have := hown x n b i hx
        simp only [SMem.alloc] at hy; cases hy; omega
      · rw [put_ne _ _ hxd] at hx; rw [put_ne _ _ hyd] at hy; exact h.inj x y b n k i j hx hy
  · intro b hb
    simp only [put_mem, SMem.alloc] at hb
    split at hb
    · next e => subst e; exact Or.inr ⟨d, t.length, by simp [SMem.alloc]⟩
    · rcases h.owned b hb with h1 | ⟨x, n, hx⟩
      · exact Or.inl h1
      · have hxd : x ≠ d := by intro e; subst e; exact hd n b 0 hx
        exact Or.inr ⟨x, n, by rw [put_ne _ _ hxd]; exact hx⟩

theorem setOwning_ok {ext : Ext 8} {st : CSt} {m : Nat → Var 8} (h : WF ext st m) (d : Nat)
    {src : Loc} {t : List Byte} (hr : 0 < t.length → ∀ st', reset st d = .ok st' →
      WF ext st' (upd m d ⟨[], true⟩) → (∀ x, x ≠ d → st'.strs x = st.strs x) →
      st'.read src t.length = .ok t) (hg : GoodLen t.length) :
    ∃ st', setOwning st d src t.length = .ok st' ∧ WF ext st' (upd m d ⟨t, true⟩) := by
  obtain ⟨st1, e1, w1, hi, hx1⟩ := reset_ok h d true
  unfold setOwning
  rw [e1]
  simp only [bind, Except.bind, pure, Except.pure]
  by_cases hz : t.length = 0
  · rw [if_pos hz]
    rw [List.length_eq_zero_iff.1 hz]
    exact ⟨st1, rfl, w1⟩
  · rw [if_neg hz]
    have hrd := hr (by omega) st1 e1 w1 hx1
    by_cases hL : t.length ≤ 15
    · rw [remaining_short hL, if_pos (by omega)]
      simp only [hL, decide_true, require_true, hrd]
      refine ⟨_, rfl, ?_⟩
      have := w1.put (not_owner_init st1 d hi)
        (s := .sso (t ++ List.replicate (15 - t.length) 0#8) (15 - t.length))
        (by intro n b o e; cases e) (.sso t true hL (by simp))
      rwa [upd_upd] at this
    · have := hg.neg (by omega)
      rw [if_neg (by omega)]
      have hlt := hg.lt
      simp only [hlt, decide_true, require_true, hrd]
      refine ⟨_, rfl, ?_⟩
      have := w1.putOwned (not_owner_init st1 d hi) t (by omega) hlt
      rwa [upd_upd] at this

theorem setNonOwning_ok {ext : Ext 8} {st : CSt} {m : Nat → Var 8} (h : WF ext st m) (d : Nat)
    {src : Loc} {t : List Byte} (hext : t = [] ∨ ∃ b off cs, src = .mem b off ∧ ext b = some cs ∧
      off + t.length ≤ cs.length ∧ slice cs off t.length = t) (hlt : t.length < 2 ^ 32) :
    ∃ st', setNonOwning st d src t.length = .ok st' ∧ WF ext st' (upd m d ⟨t, false⟩) := by
  obtain ⟨st1, e1, w1, hi, hx1⟩ := reset_ok h d false
  unfold setNonOwning
  rw [e1]
  refine ⟨_, rfl, ?_⟩
  have := w1.put (not_owner_init st1 d hi) (s := .heap false t.length src)
    (by intro n b o e; cases e) (.ref src t hext hlt)
  rwa [upd_upd] at this

theorem read_other {ext : Ext 8} {st st' : CSt} {m : Nat → Var 8} {o : Bool} {d x : Nat}
    (hne : x ≠ d) (w' : WF ext st' (upd m d ⟨[], o⟩)) (hx : ∀ x, x ≠ d → st'.strs x = st.strs x)
    {off n : Nat} (hle : off + n ≤ (m x).text.length) (hn : 0 < n) :
    st'.read ((st.data x).add off) n = .ok (slice (m x).text off n) := by
  have := w'.readSub x (off := off) (n := n) (by rw [upd_ne _ _ hne]; exact hle) hn
  rw [upd_ne _ _ hne] at this
  have hd : st'.data x = st.data x := by simp only [CSt.data, hx x hne]
  rw [← hd]; exact this

theorem WF.setOwned {ext : Ext 8} {st : CSt} {m : Nat → Var 8} (h : WF ext st m) {d b n : Nat}
    (hs : st.strs d = .heap true n (.mem b 0)) {t : List Byte} (hcs : ∃ c, st.mem.blocks b = some c)
    (he : ext b = none) (hl : 15 < t.length) (hg : t.length + 1 < 2 ^ 32) :
    WF ext ({ st with mem := st.mem.setBlk b (some (t ++ [0#8])) }.put d (.heap true t.length (.mem b 0)))
      (upd m d ⟨t, true⟩) := by
  refine { rep := ?_, extLive := ?_, fresh := ?_, inj := ?_, owned := ?_ }
  · intro x
    by_cases hx : x = d
    · subst hx; rw [put_same, upd_same]
      exact .owned b t (by simp [SMem.setBlk]) he hl hg
    · rw [put_ne _ _ hx, upd_ne _ _ hx]
      refine (h.rep x).frame ?_
      intro b' k hx'
      have : b' ≠ b := by intro e; subst e; exact hx (h.inj x d b' _ _ _ _ hx' hs)
      simp [SMem.setBlk, this]
  · intro b' c he'
    have : b' ≠ b := by intro e; subst e; rw [he] at he'; cases he'
    simp only [put_mem, SMem.setBlk, if_neg this]; exact h.extLive b' c he'
  · intro b' hb'
    have : b' ≠ b := by
      intro e; subst e
      obtain ⟨c, hc⟩ := hcs
      have := h.fresh b' hb'
      rw [hc] at this; cases this
    simp only [put_mem, SMem.setBlk, if_neg this]; exact h.fresh b' hb'
  · have key : ∀ x n' b' i, ({ st with mem := st.mem.setBlk b (some (t ++ [0#8])) }.put d
        (.heap true t.length (.mem b 0))).strs x = .heap true n' (.mem b' i) →
        ∃ k j, st.strs x = .heap true k (.mem b' j) := by
      intro x n' b' i hx
      by_cases hxd : x = d
      · subst hxd; rw [put_same] at hx; cases hx; exact ⟨n, 0, hs⟩
      · rw [put_ne _ _ hxd] at hx; exact ⟨n', i, hx⟩
    intro x y b' n' k i j hx hy
    obtain ⟨_, _, hx'⟩ := key x _ _ _ hx
    obtain ⟨_, _, hy'⟩ := key y _ _ _ hy
    exact h.inj x y b' _ _ _ _ hx' hy'
  · intro b' hb'
    by_cases hbb : b' = b
    · subst hbb; exact Or.inr ⟨d, t.length, by rw [put_same]⟩
    · simp only [put_mem, SMem.setBlk, if_neg hbb] at hb'
      rcases h.owned b' hb' with h1 | ⟨x, k, hx⟩
      · exact Or.inl h1
      · have hxd : x ≠ d := by intro e; subst e; rw [hs] at hx; cases hx; exact hbb rfl
        exact Or.inr ⟨x, k, by rw [put_ne _ _ hxd]; exact hx⟩

theorem write_ok {ext : Ext 8} {st : CSt} {m : Nat → Var 8} (h : WF ext st m) {d i : Nat}
    (ho : (m d).own = true) (hi : i < (m d).text.length) (c : Byte) :
    ∃ st', write st d i c = .ok st' ∧ WF ext st' (upd m d ⟨(m d).text.set i c, true⟩) := by
  have r := h.rep d
  have hsz := h.size d
  unfold write
  simp only [hsz, hi, decide_true, require_true, bind, Except.bind, pure, Except.pure]
  generalize hs : st.strs d = s at r
  cases hv : m d with
  | mk t ow =>
    rw [hv] at r hi ho
    simp only at ho hi
    subst ho
    cases r with
    | sso _ _ hl hso =>
      simp only []
      rw [List.set_append_left _ _ hi]
      refine ⟨_, rfl, h.put (by rw [hs]; intro n b o e; cases e) (by intro n b o e; cases e) ?_⟩
      have := RepC.sso (ext := ext) (mem := st.mem) (t.set i c) true (by simpa using hl) (by simp)
      simpa using this
    | owned b t hb he hl hg =>
      simp only [hb, Nat.zero_add]
      rw [show decide (i < (t ++ [0#8]).length) = true by simp; omega]
      simp only [require_true]
      refine ⟨_, rfl, ?_⟩
      rw [List.set_append_left _ _ hi]
      have := h.setOwned hs (t := t.set i c) ⟨_, hb⟩ he (by simpa using hl) (by simpa using hg)
      simpa using this

/-- Moving onto a variable that owns no heap memory. -/
theorem moveFrom_ok {ext : Ext 8} {st : CSt} {m : Nat → Var 8} (h : WF ext st m) (raw : Bool)
    {d x : Nat} (hne : d ≠ x) (hd : ∀ n b o, st.strs d ≠ .heap true n (.mem b o)) :
    ∃ v : Var 8, v.own = true ∧
      (if raw then v.text = List.replicate 15 0#8 else v.text = [] ∨ v.text = (m x).text) ∧
      WF ext (moveFrom raw st d x) (upd (upd m d (m x)) x v) := by
  have hxd : x ≠ d := fun e => hne e.symm
  have r := h.rep x
  have swap : ∀ (s' : CS) (v : Var 8), (∀ n b o, s' ≠ .heap true n (.mem b o)) → RepC ext st.mem s' v →
      WF ext ((st.put d (st.strs x)).put x s') (upd (upd m d (m x)) x v) := by
    intro s' v hs' rv
    have key : ∀ y n b i, ((st.put d (st.strs x)).put x s').strs y = .heap true n (.mem b i) →
        (y = d ∧ st.strs x = .heap true n (.mem b i)) ∨
        (y ≠ d ∧ y ≠ x ∧ st.strs y = .heap true n (.mem b i)) := by
      intro y n b i hy
      by_cases hyx : y = x
      · subst hyx; rw [put_same] at hy; exact absurd hy (hs' n b i)
      · rw [put_ne _ _ hyx] at hy
        by_cases hyd : y = d
        · subst hyd; rw [put_same] at hy; exact Or.inl ⟨rfl, hy⟩
        · rw [put_ne _ _ hyd] at hy; exact Or.inr ⟨hyd, hyx, hy⟩
    refine { rep := ?_, extLive := h.extLive, fresh := h.fresh, inj := ?_, owned := ?_ }
    · intro y
      by_cases hyx : y = x
      · subst hyx; rw [put_same, upd_same]; exact rv
      · rw [put_ne _ _ hyx, upd_ne _ _ hyx]
        by_cases hyd : y = d
        · subst hyd; rw [put_same, upd_same]; exact r
        · rw [put_ne _ _ hyd, upd_ne _ _ hyd]; exact h.rep y
    · intro y z b n k i j hy hz
      rcases key _ _ _ _ hy with ⟨ey, hy'⟩ | ⟨hyd, hyx, hy'⟩
      · rcases key _ _ _ _ hz with ⟨ez, hz'⟩ | ⟨hzd, hzx, hz'⟩
        · rw [ey, ez]
        · exact absurd (h.inj _ _ _ _ _ _ _ hz' hy') hzx
      · rcases key _ _ _ _ hz with ⟨ez, hz'⟩ | ⟨hzd, hzx, hz'⟩
        · exact absurd (h.inj _ _ _ _ _ _ _ hy' hz') hyx
        · exact h.inj _ _ _ _ _ _ _ hy' hz'
    · intro b hb
      rcases h.owned b hb with h1 | ⟨y, n, hy⟩
      · exact Or.inl h1
      · by_cases hyx : y = x
        · subst hyx
          exact Or.inr ⟨d, n, by rw [put_ne _ _ hne, put_same]; exact hy⟩
        · have hyd : y ≠ d := by intro e; subst e; exact hd n b 0 hy
          exact Or.inr ⟨y, n, by rw [put_ne _ _ hyx, put_ne _ _ hyd]; exact hy⟩
  unfold moveFrom
  cases raw with
  | true =>
    exact ⟨⟨List.replicate 15 0#8, true⟩, rfl, by simp,
      swap _ _ (by intro n b o e; cases e) (RepC.sso (List.replicate 15 0#8) true (by simp) (by simp))⟩
  | false =>
    simp only [Bool.false_eq_true, if_false]
    generalize hs : st.strs x = s at r swap
    cases hv : m x with
    | mk t o =>
      rw [hv] at r swap
      cases r with
      | sso _ _ hl hso =>
        refine ⟨⟨t, true⟩, rfl, Or.inr rfl, ?_⟩
        have hput : (st.put d (.sso (t ++ List.replicate (15 - t.length) 0#8) (15 - t.length))).put x
            (.sso (t ++ List.replicate (15 - t.length) 0#8) (15 - t.length)) =
            st.put d (.sso (t ++ List.replicate (15 - t.length) 0#8) (15 - t.length)) := by
          simp only [CSt.put, CSt.mk.injEq, true_and]
          funext y
          by_cases hy : y = x
          · subst hy; simp [hxd, hs]
          · simp [hy]
        have := swap _ ⟨t, true⟩ (by intro n b o e; cases e) (RepC.sso t true hl (by simp))
        rw [hput] at this
        exact this
      | owned b t hb he hl hg =>
        exact ⟨⟨[], true⟩, rfl, Or.inl rfl, swap _ _ (by intro n b o e; cases e) (rep_init _ _ true)⟩
      | ref p t h1 hlt =>
        exact ⟨⟨[], true⟩, rfl, Or.inl rfl, swap _ _ (by intro n b o e; cases e) (rep_init _ _ true)⟩

/-! ## Histories -/

/-- Operations on C string variables (`cstring` and `cstring_view`). -/
inductive Op where
  | assign (d b off len : Nat)
  | reference (d b off len : Nat)
  | assignC (d b off : Nat)
  | referenceC (d b off : Nat)
  | assignSub (d x off n : Nat)
  | assignString (d x : Nat)
  | assignView (d x : Nat)
  | move (d x : Nat)
  | reset (d : Nat)
  | write (d i : Nat) (c : Byte)

/-- Execute one operation. -/
def Op.exec (raw : Bool) (st : CSt) : Op → Res CSt
  | .assign d b off len => setOwningView st d (.mem b off) len
  | .reference d b off len => setNonOwningView st d (.mem b off) len
  | .assignC d b off => (mstrlen st b off).bind fun n => setOwning st d (.mem b off) n
  | .referenceC d b off => (mstrlen st b off).bind fun n => setNonOwning st d (.mem b off) n
  | .assignSub d x off n => CStr.assignSub st d x off n
  | .assignString d x => CStr.assignString st d x
  | .assignView d x => CStr.assignView st d x
  | .move d x => .ok (moveFrom raw st d x)
  | .reset d => CStr.reset st d
  | .write d i c => CStr.write st d i c

/-- Run a history. -/
def run (raw : Bool) : CSt → List Op → Res CSt
  | st, [] => .ok st
  | st, op :: ops => (op.exec raw st).bind fun st' => run raw st' ops

/-- The C string at an address. -/
def cstr (cs : List Byte) (off : Nat) : List Byte := (cs.drop off).takeWhile (· ≠ 0#8)

/-- Caller obligations. -/
def Op.Pre (ext : Ext 8) (m : Nat → Var 8) : Op → Prop
  | .assign _ b off len | .reference _ b off len =>
    ∃ cs, ext b = some cs ∧ off + len ≤ cs.length ∧ len < 2 ^ 32
  | .assignC _ b off | .referenceC _ b off =>
    ∃ cs, ext b = some cs ∧ off + (cstr cs off).length < cs.length ∧ (cstr cs off).length < 2 ^ 32
  | .assignSub _ x off n => off + n ≤ (m x).text.length
  | .assignView _ x => (m x).own = false
  | .write d i _ => (m d).own = true ∧ i < (m d).text.length
  | _ => True

/-- Effect on the texts; a moved-from string holds an unspecified text. -/
inductive Op.Step (ext : Ext 8) (m : Nat → Var 8) : Op → (Nat → Var 8) → Prop where
  | assign {d b off len cs} (h : ext b = some cs) :
    Step ext m (.assign d b off len) (upd m d ⟨slice cs off len, true⟩)
  | reference {d b off len cs} (h : ext b = some cs) :
    Step ext m (.reference d b off len) (upd m d ⟨slice cs off len, false⟩)
  | assignC {d b off cs} (h : ext b = some cs) : Step ext m (.assignC d b off) (upd m d ⟨cstr cs off, true⟩)
  | referenceC {d b off cs} (h : ext b = some cs) :
    Step ext m (.referenceC d b off) (upd m d ⟨cstr cs off, false⟩)
  | assignSub {d x off n} : Step ext m (.assignSub d x off n) (upd m d ⟨slice (m x).text off n, true⟩)
  | assignString {d x} : Step ext m (.assignString d x) (upd m d ⟨(m x).text, true⟩)
  | assignView {d x} : Step ext m (.assignView d x) (upd m d ⟨(m x).text, false⟩)
  | moveSelf {d} : Step ext m (.move d d) m
  | move {d x v} (hne : d ≠ x) : Step ext m (.move d x) (upd (upd m d (m x)) x v)
  | reset {d} : Step ext m (.reset d) (upd m d ⟨[], true⟩)
  | write {d i c} : Step ext m (.write d i c) (upd m d ⟨(m d).text.set i c, true⟩)

/-- What C17 has to exclude: lengths that are misclassified, assignment of a string from itself, move
assignment onto itself or onto a string that owns heap memory. -/
def Op.NoBug (ext : Ext 8) (m : Nat → Var 8) : Op → Prop
  | .assign _ _ _ len => GoodLen len
  | .assignC _ b off => ∀ cs, ext b = some cs → GoodLen (cstr cs off).length
  | .assignSub d x _ n => x ≠ d ∧ GoodLen n
  | .assignString d x => x ≠ d ∧ GoodLen (m x).text.length
  | .move d x => d ≠ x ∧ ((m d).own = false ∨ (m d).text.length ≤ 15)
  | _ => True

/-- Every operation of the history meets its obligations. -/
def Allowed (ext : Ext 8) : (Nat → Var 8) → List Op → Prop
  | _, [] => True
  | m, op :: ops => op.Pre ext m ∧ op.NoBug ext m ∧ ∀ m', op.Step ext m m' → Allowed ext m' ops

/-- Outcomes the specification permits. -/
inductive Steps (ext : Ext 8) : (Nat → Var 8) → List Op → (Nat → Var 8) → Prop where
  | nil {m} : Steps ext m [] m
  | cons {m m1 m2 op ops} (h1 : op.Step ext m m1) (h2 : Steps ext m1 ops m2) : Steps ext m (op :: ops) m2

theorem readExt {ext : Ext 8} {st : CSt} {m : Nat → Var 8} (h : WF ext st m)
    {b off n : Nat} {cs : List Byte} (he : ext b = some cs) (hle : off + n ≤ cs.length) :
    st.read (.mem b off) n = .ok (slice cs off n) := by
  simp [CSt.read, readLoc, h.extLive b cs he, hle]

theorem slice_cstr (cs : List Byte) (off : Nat) : slice cs off (cstr cs off).length = cstr cs off := by
  simp only [slice]
  have h : cstr cs off <+: cs.drop off := List.takeWhile_prefix _
  exact (List.prefix_iff_eq_take.1 h).symm

theorem mstrlen_ok {ext : Ext 8} {st : CSt} {m : Nat → Var 8} (h : WF ext st m) {b off : Nat}
    {cs : List Byte} (he : ext b = some cs) (hz : off + (cstr cs off).length < cs.length)
    (hlt : (cstr cs off).length < 2 ^ 32) : mstrlen st b off = .ok (cstr cs off).length := by
  unfold mstrlen
  rw [h.extLive b cs he]
  simp only []
  unfold cstr at hz hlt ⊢
  rw [if_pos hz, Nat.mod_eq_of_lt hlt]

theorem exec_ok (raw : Bool) {ext : Ext 8} {st : CSt} {m : Nat → Var 8}
    (h : WF ext st m) (op : Op) (hp : op.Pre ext m) (hb : op.NoBug ext m) :
    ∃ st' m', op.exec raw st = .ok st' ∧ op.Step ext m m' ∧ WF ext st' m' := by
  cases op with
  | assign d b off len =>
    obtain ⟨cs, he, hle, hlt⟩ := hp
    have hlen : (slice cs off len).length = len := by simp [slice]; omega
    obtain ⟨st', e, w'⟩ := setOwning_ok h d (src := .mem b off) (t := slice cs off len)
      (by intro _ st' _ w' _; rw [hlen]; exact readExt w' he hle) (by rw [hlen]; exact hb)
    exact ⟨st', _, by simp only [Op.exec, setOwningView, Nat.mod_eq_of_lt hlt]; rw [← e, hlen], .assign he, w'⟩
  | reference d b off len =>
    obtain ⟨cs, he, hle, hlt⟩ := hp
    have hlen : (slice cs off len).length = len := by simp [slice]; omega
    obtain ⟨st', e, w'⟩ := setNonOwning_ok h d (src := .mem b off) (t := slice cs off len)
      (Or.inr ⟨b, off, cs, rfl, he, by omega, by rw [hlen]⟩) (by omega)
    exact ⟨st', _, by simp only [Op.exec, setNonOwningView, Nat.mod_eq_of_lt hlt]; rw [← e, hlen],
      .reference he, w'⟩
  | assignC d b off =>
    obtain ⟨cs, he, hle, hlt⟩ := hp
    obtain ⟨st', e, w'⟩ := setOwning_ok h d (src := .mem b off) (t := cstr cs off)
      (by intro _ st' _ w' _; rw [readExt w' he (by omega), slice_cstr]) (hb cs he)
    refine ⟨st', _, ?_, .assignC he, w'⟩
    simp only [Op.exec, mstrlen_ok h he hle hlt, Except.bind]
    exact e
  | referenceC d b off =>
    obtain ⟨cs, he, hle, hlt⟩ := hp
    obtain ⟨st', e, w'⟩ := setNonOwning_ok h d (src := .mem b off) (t := cstr cs off)
      (Or.inr ⟨b, off, cs, rfl, he, by omega, slice_cstr cs off⟩) hlt
    refine ⟨st', _, ?_, .referenceC he, w'⟩
    simp only [Op.exec, mstrlen_ok h he hle hlt, Except.bind]
    exact e
  | assignSub d x off n =>
    obtain ⟨hne, hn⟩ := hb
    simp only [Op.Pre] at hp
    have hlen : (slice (m x).text off n).length = n := by simp [slice]; omega
    have hlt : n < 2 ^ 32 := by have := hn.lt; omega
    obtain ⟨st', e, w'⟩ := setOwning_ok h d (src := (st.data x).add off) (t := slice (m x).text off n)
      (by intro h0 st' _ w' hx; rw [hlen]; exact read_other hne w' hx hp (by omega)) (by rw [hlen]; exact hn)
    refine ⟨st', _, ?_, .assignSub, w'⟩
    simp only [Op.exec, CStr.assignSub, setOwningView, Nat.mod_eq_of_lt hlt]
    rw [← e, hlen]
  | assignString d x =>
    obtain ⟨hne, hn⟩ := hb
    obtain ⟨st', e, w'⟩ := setOwning_ok h d (src := st.data x) (t := (m x).text)
      (by
        intro h0 st' _ w' hx
        have := read_other hne w' hx (off := 0) (n := (m x).text.length) (by omega) h0
        rw [Str.add_zero] at this
        rw [this]; simp [slice]) hn
    exact ⟨st', _, by simp only [Op.exec, CStr.assignString, h.size]; exact e, .assignString, w'⟩
  | assignView d x =>
    have hsrc : (m x).text = [] ∨ ∃ b off cs, st.data x = .mem b off ∧ ext b = some cs ∧
        off + (m x).text.length ≤ cs.length ∧ slice cs off (m x).text.length = (m x).text := by
      have r := h.rep x
      unfold CSt.data
      generalize st.strs x = s at r
      simp only [Op.Pre] at hp
      cases hv : m x with
      | mk t o =>
        rw [hv] at r hp
        simp only at hp
        cases r with
        | sso _ _ hl hso => exact Or.inl (hso hp)
        | owned b t hb he hl hg => cases hp
        | ref p t h1 hlt => exact h1
    obtain ⟨st', e, w'⟩ := setNonOwning_ok h d (src := st.data x) (t := (m x).text) hsrc (h.lt x)
    exact ⟨st', _, by simp only [Op.exec, CStr.assignView, h.size]; exact e, .assignView, w'⟩
  | move d x =>
    obtain ⟨hne, hd⟩ := hb
    obtain ⟨v, _, _, w'⟩ := moveFrom_ok h raw hne (d := d) (x := x) (by
      intro n b o e
      have r := h.rep d
      rw [e] at r
      generalize m d = v at r hd
      cases r with
      | owned _ t hb he hl hg => rcases hd with hd | hd
                                 · cases hd
                                 · simp only at hd; omega)
    exact ⟨_, _, rfl, .move hne, w'⟩
  | reset d =>
    obtain ⟨st', e, w', _⟩ := reset_ok h d true
    exact ⟨st', _, e, .reset, w'⟩
  | write d i c =>
    obtain ⟨st', e, w'⟩ := write_ok h (d := d) (i := i) hp.1 hp.2 c
    exact ⟨st', _, e, .write, w'⟩


theorem run_ok (raw : Bool) {ext : Ext 8} (ops : List Op) : ∀ {st : CSt} {m : Nat → Var 8},
    WF ext st m → Allowed ext m ops →
    ∃ st' m', run raw st ops = .ok st' ∧ Steps ext m ops m' ∧ WF ext st' m' := by
  induction ops with
  | nil => intro st m h _; exact ⟨st, m, rfl, .nil, h⟩
  | cons op ops ih =>
    intro st m h ha
    obtain ⟨hp, hb, hn⟩ := ha
    obtain ⟨st1, m1, e1, s1, w1⟩ := exec_ok raw h op hp hb
    obtain ⟨st2, m2, e2, s2, w2⟩ := ih w1 (hn m1 s1)
    exact ⟨st2, m2, by rw [run, e1]; exact e2, .cons s1 s2, w2⟩

/-- All variables default constructed, only caller memory allocated. -/
def start (ext : Ext 8) (n : Nat) : CSt := ⟨⟨ext, n⟩, fun _ => .init⟩

theorem start_wf {ext : Ext 8} {n : Nat} (hn : ∀ b, n ≤ b → ext b = none) :
    WF ext (start ext n) (fun _ => ⟨[], false⟩) where
  rep := fun _ => rep_init _ _ false
  extLive := fun _ _ h => h
  fresh := hn
  inj := by intro x y b n k i j hx; cases hx
  owned := fun _ h => Or.inl h

/-- **C17** (partial).  Starting from default constructed C strings and views, every history of
constructions, assignments, copies, moves, resets and character writes (outside `NoBug`) runs without
undefined behaviour; afterwards every variable's `view()`/`size()` is exactly the specified text,
every owning string has a NUL at `data()[size()]`, caller memory is unmodified, and the heap blocks
still allocated are exactly those of the caller plus one per string longer than 15 characters.

Missing: the operations excluded by `NoBug`, for which the statement is false. -/
theorem C17_history_partial (raw : Bool) (ext : Ext 8) (n : Nat) (hn : ∀ b, n ≤ b → ext b = none)
    (ops : List Op) (ha : Allowed ext (fun _ => ⟨[], false⟩) ops) :
    ∃ st' m', run raw (start ext n) ops = .ok st' ∧ Steps ext (fun _ => ⟨[], false⟩) ops m' ∧
      (∀ x, st'.view x = .ok (m' x).text ∧ st'.size x = (m' x).text.length ∧
        ((m' x).own = true → st'.terminator x = .ok 0#8)) ∧
      (∀ b cs, ext b = some cs → st'.mem.blocks b = some cs) ∧
      (∀ b, st'.mem.blocks b ≠ none → ext b ≠ none ∨
        ∃ x, (m' x).own = true ∧ 15 < (m' x).text.length ∧ st'.strs x = .heap true (m' x).text.length (.mem b 0)) := by
  obtain ⟨st', m', e, s, w⟩ := run_ok raw ops (start_wf hn) ha
  refine ⟨st', m', e, s, fun x => ⟨w.view x, w.size x, w.terminator x⟩, w.extLive, ?_⟩
  intro b hb
  rcases w.owned b hb with h | ⟨x, k, hx⟩
  · exact Or.inl h
  · refine Or.inr ⟨x, ?_⟩
    have r := w.rep x
    rw [hx] at r
    generalize m' x = v at r
    cases r with
    | owned _ t hb he hl hg => exact ⟨rfl, hl, hx⟩

/-- Caller memory: block 0 holds 20 characters and a NUL. -/
def exExt : Ext 8 := fun b => if b = 0 then some (List.replicate 20 65#8 ++ [0#8]) else none

/-- Own 20 characters, copy, move, view, modify. -/
def exOps : List Op :=
  [.assignC 0 0 0, .assignString 1 0, .reference 2 0 3 4, .move 3 1, .write 0 2 66#8, .assignView 4 2]

example : Allowed exExt (fun _ => ⟨[], false⟩) exOps := by
  have e20 : cstr (List.replicate 20 65#8 ++ [0#8]) 0 = List.replicate 20 65#8 := by decide +kernel
  refine ⟨⟨_, rfl, by rw [e20]; decide, by rw [e20]; decide⟩, ?_, ?_⟩
  · intro cs hcs
    have : cs = List.replicate 20 65#8 ++ [0#8] := by simpa [exExt] using hcs.symm
    subst this; rw [e20]; left; decide
  · intro m1 h1
    cases h1 with
    | assignC h =>
      rename_i cs
      have : cs = List.replicate 20 65#8 ++ [0#8] := by simpa [exExt] using h.symm
      subst this
      refine ⟨trivial, ⟨by decide, by rw [upd_same, e20]; left; decide⟩, ?_⟩
      intro m2 h2
      cases h2
      refine ⟨⟨_, rfl, by decide, by decide⟩, trivial, ?_⟩
      intro m3 h3
      cases h3 with
      | reference h3 =>
        refine ⟨trivial, ⟨by decide, Or.inl rfl⟩, ?_⟩
        intro m4 h4
        cases h4 with
        | move hne =>
          refine ⟨⟨rfl, ?_⟩, trivial, ?_⟩
          · change 2 < (cstr (List.replicate 20 65#8 ++ [0#8]) 0).length
            rw [e20]; decide
          · intro m5 h5
            cases h5
            refine ⟨rfl, trivial, fun _ _ => trivial⟩

example : (run false (start exExt 1) exOps).bind (fun s => s.view 0) =
    .ok (List.replicate 2 65#8 ++ [66#8] ++ List.replicate 17 65#8) := by decide +kernel
example : (run false (start exExt 1) exOps).bind (fun s => s.view 3) = .ok (List.replicate 20 65#8) := by
  decide +kernel

/-! ## Violations -/

/-- **C17 is violated** for every length of at least `2^31 + 16` whose `15 - len` has a low byte below
128: the text is taken for a short one and copied over the end of the 15 byte buffer. -/
theorem C17_length_violated (st st' : CSt) (d : Nat) (src : Loc) (len : Nat) (h1 : 2 ^ 31 + 16 ≤ len)
    (h2 : len < 2 ^ 32) (hm : (2 ^ 32 + 15 - len) % 256 < 128) (hr : reset st d = .ok st') :
    setOwning st d src len = .error .ub := by
  unfold setOwning
  simp only [hr, bind, Except.bind, pure, Except.pure]
  rw [if_neg (by omega), remaining_huge h1 h2, if_pos hm, if_pos (by omega)]
  rw [show decide (len ≤ 15) = false by simp; omega]
  rfl

example : (2 ^ 32 + 15 - (2 ^ 32 - 16)) % 256 < 128 := by decide

/-- **C17 is violated** at length `2^32 - 1`: the allocation size wraps to 0. -/
theorem C17_length_max_violated (st st' : CSt) (d : Nat) (src : Loc) (hr : reset st d = .ok st') :
    setOwning st d src (2 ^ 32 - 1) = .error .ub := by
  exact C17_length_violated st st' d src (2 ^ 32 - 1) (by decide) (by decide) (by decide) hr

/-- **C17 is violated** by copy assignment of a string to itself: every long string that owns its memory reads freed memory, every short
one is replaced by NULs. -/
theorem C17_self_assign_violated (raw : Bool) (st : CSt) (d : Nat) :
    (∀ n b cs, st.strs d = .heap true n (.mem b 0) → st.mem.blocks b = some cs → 15 < n → (Op.assignString d d).exec raw st = .error .ub) ∧
    ∀ s (len : Nat), st.strs d = .sso s (15 - (len : Int)) → len ≤ 15 →
      ∃ st', (Op.assignString d d).exec raw st = .ok st' ∧ st'.view d = .ok (List.replicate len 0#8) := by
  constructor
  · intro n b cs hd hb hn
    show assignString st d d = _
    have hr : reset st d = .ok ({ st with mem := st.mem.setBlk b none }.put d .init) := by
      unfold reset
      rw [hd]
      simp only [SMem.free, hb, if_true]
      rfl
    have hread : ({ st with mem := st.mem.setBlk b none }.put d .init).read (.mem b 0) n = .error .ub := by
      simp [CSt.read, readLoc, CSt.put, SMem.setBlk]
    unfold assignString setOwning
    rw [hr]
    simp only [CSt.data, CSt.size, hd, ok_bind]
    rw [if_neg (by omega)]
    by_cases hrem : 0 ≤ remaining n
    · rw [if_pos hrem, decide_eq_false (by omega), require_false]; rfl
    · rw [if_neg hrem]
      by_cases hl : n + 1 < 2 ^ 32
      · rw [decide_eq_true hl, require_true, ok_bind, hread]; rfl
      · rw [decide_eq_false hl, require_false]; rfl
  · intro s len hd hlen
    have hr : reset st d = .ok (st.put d .init) := by unfold reset; rw [hd]
    have hsz : st.size d = len := by
      unfold CSt.size; rw [hd]; simp only; omega
    have hdat : st.data d = .inl d 0 := by unfold CSt.data; rw [hd]
    have hex : (Op.assignString d d).exec raw st = setOwning st d (.inl d 0) len := by
      show assignString st d d = _
      unfold assignString; rw [hsz, hdat]
    rw [hex]
    unfold setOwning
    rw [hr, ok_bind]
    by_cases h0 : len = 0
    · subst h0
      refine ⟨_, rfl, ?_⟩
      simp [CSt.view, CSt.size, CSt.put, CS.init]
    · rw [if_neg h0, remaining_short hlen]
      simp only []
      rw [if_pos (by omega), decide_eq_true hlen, require_true, ok_bind]
      have hread : (st.put d .init).read (.inl d 0) len = .ok (List.replicate len 0#8) := by
        have ht : (List.replicate 15 0#8).take len = List.replicate len 0#8 := by
          rw [List.take_replicate, Nat.min_eq_left hlen]
        simp only [CSt.read, readLoc, CSt.inl, CSt.put, CS.init, if_true, slice, List.drop_zero, ht]
        rw [if_pos (by rw [List.length_replicate]; omega)]
      rw [hread, ok_bind]
      refine ⟨_, rfl, ?_⟩
      have hsz2 : ((st.put d .init).put d (.sso (List.replicate len 0#8 ++ List.replicate (15 - len) 0#8) (15 - (len : Int)))).size d = len := by
        simp only [CSt.size, CSt.put, if_true]; omega
      unfold CSt.view
      rw [hsz2, if_neg h0]
      simp [CSt.data, CSt.read, readLoc, CSt.inl, CSt.put, slice]

example : (((Op.assignC 0 0 0).exec false (start exExt 1)).bind (fun s => (Op.assignString 0 0).exec false s)).map
      (fun _ => ()) = .error .ub ∧
    (((Op.assign 0 0 0 3).exec false (start exExt 1)).bind (fun s => (Op.assignString 0 0).exec false s)).bind
      (fun s => s.view 0) = .ok [0#8, 0#8, 0#8] := by
  constructor <;> decide +kernel

/-- **C17 is violated** by move assignment onto any string that owns memory: the block stays allocated although no variable refers to it. -/
theorem C17_move_leak_violated (raw : Bool) (st st' : CSt) (d x n b : Nat) (cs : List Byte) (hne : d ≠ x)
    (_hd : st.strs d = .heap true n (.mem b 0)) (hb : st.mem.blocks b = some cs)
    (hown : ∀ y, y ≠ d → ∀ self k o, st.strs y ≠ .heap self k (.mem b o)) (he : (Op.move d x).exec raw st = .ok st') :
    st'.mem.blocks b = some cs ∧ ∀ y self k o, st'.strs y ≠ .heap self k (.mem b o) := by
  have he : moveFrom raw st d x = st' := Except.ok.inj he
  subst he
  have hx := hown x (fun h => hne h.symm)
  unfold moveFrom
  cases raw with
  | true =>
    refine ⟨hb, fun y self k o => ?_⟩
    simp only [if_true, CSt.put]
    split
    · intro h; cases h
    · split
      · exact hx self k o
      · exact hown y (by assumption) self k o
  | false =>
    simp only [Bool.false_eq_true, if_false]
    cases hsx : st.strs x with
    | sso s rem =>
      refine ⟨hb, fun y self k o => ?_⟩
      simp only [CSt.put]
      split
      · intro h; cases h
      · exact hown y (by assumption) self k o
    | heap self0 k0 p0 =>
      refine ⟨hb, fun y self k o => ?_⟩
      simp only [CSt.put]
      split
      · intro h; cases h
      · split
        · rw [← hsx]; exact hx self k o
        · exact hown y (by assumption) self k o

example : (((Op.assignC 0 0 0).exec false (start exExt 1)).bind fun s =>
      (Op.move 0 1).exec false s).map (fun s => (s.mem.blocks 1, (s.strs 0), (s.strs 1))) =
    .ok (some (List.replicate 20 65#8 ++ [0#8]), .init, .init) := by decide +kernel

/-- **C17 is violated** by self-move assignment: every long string loses its text (and its memory), with raw
pointers every string becomes 15 NUL characters. -/
theorem C17_self_move_violated (st : CSt) (d : Nat) :
    (∀ self n p, st.strs d = .heap self n p → ∃ st', (Op.move d d).exec false st = .ok st' ∧ st'.view d = .ok [] ∧ st'.mem = st.mem) ∧
    ∃ st', (Op.move d d).exec true st = .ok st' ∧ st'.view d = .ok (List.replicate 15 0#8) := by
  constructor
  · intro self n p hd
    refine ⟨_, rfl, ?_, ?_⟩
    · unfold moveFrom
      rw [hd]
      simp [CSt.view, CSt.size, CSt.put, CS.init]
    · unfold moveFrom
      rw [hd]
      rfl
  · refine ⟨_, rfl, ?_⟩
    unfold moveFrom CSt.view CSt.size CSt.data CSt.read
    simp [readLoc, CSt.inl, CSt.put, slice]

example : (((Op.assignC 0 0 0).exec false (start exExt 1)).bind fun s => (Op.move 0 0).exec false s).bind
      (fun s => s.view 0) = .ok [] ∧
    (((Op.assign 0 0 0 3).exec true (start exExt 1)).bind fun s => (Op.move 0 0).exec true s).bind
      (fun s => s.view 0) = .ok (List.replicate 15 0#8) := by constructor <;> decide +kernel

/-- **C17 is violated** by the implicitly generated copy constructor of `generic_cstring` over raw
pointers: both objects own one block and the second destructor frees it again; for every string that owns memory. -/
theorem C17_generic_copy_violated (st : CSt) (d x n b : Nat) (cs : List Byte) (hne : d ≠ x) (hx : st.strs x = .heap true n (.mem b 0))
    (hb : st.mem.blocks b = some cs) : ∃ st', reset (implicitCopy st d x) d = .ok st' ∧ reset st' x = .error .ub := by
  have h1 : reset (implicitCopy st d x) d =
      .ok ({ (implicitCopy st d x) with mem := st.mem.setBlk b none }.put d .init) := by
    have e : (implicitCopy st d x).strs d = .heap true n (.mem b 0) := by simp [implicitCopy, CSt.put, hx]
    have e2 : (implicitCopy st d x).mem = st.mem := rfl
    unfold reset
    rw [e]
    simp only [e2, SMem.free, hb, if_true]
    rfl
  refine ⟨_, h1, ?_⟩
  have e : ({ (implicitCopy st d x) with mem := st.mem.setBlk b none }.put d .init).strs x = .heap true n (.mem b 0) := by
    simp [implicitCopy, CSt.put, hx, Ne.symm hne]
  unfold reset
  rw [e]
  simp [SMem.free, SMem.setBlk, CSt.put, bind, Except.bind]

example : (((Op.assignC 0 0 0).exec true (start exExt 1)).bind fun s =>
      (reset (implicitCopy s 1 0) 0).bind fun s => reset s 1).map (fun _ => ()) = .error .ub := by
  decide +kernel

/-- A moved-from string over raw pointers reports 15 NUL characters instead of being empty. -/
theorem C17_moved_from_violated (st : CSt) (d x : Nat) :
    (moveFrom true st d x).view x = .ok (List.replicate 15 0#8) := by
  unfold moveFrom CSt.view CSt.size CSt.data CSt.read
  simp [readLoc, CSt.inl, slice]

end Cista.CStr

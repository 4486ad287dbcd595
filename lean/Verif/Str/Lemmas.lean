import Verif.Str.Model

set_option linter.unusedSimpArgs false

/-! # Representation invariant of strings and per-operation lemmas -/
namespace Cista.Str

variable {w : Nat}

/-- What the specification knows about a string variable: its text, and whether it may own memory
(so that pointers into it must not be kept). -/
structure Var (w : Nat) where
  text : List (Ch w)
  own : Bool

/-- Immutable external memory (program text, other buffers, serialized data). -/
abbrev Ext (w : Nat) := Nat → Option (List (Ch w))

/-- `s` represents `v`. -/
inductive RepS (L : Nat) (ext : Ext w) (mem : SMem w) : Str w → Var w → Prop where
  | sso (t : List (Ch w)) (o : Bool) (hl : t.length ≤ L) (hn : 0#w ∉ t) :
    RepS L ext mem (.sso (t ++ List.replicate (L - t.length) 0#w)) ⟨t, o⟩
  | null (self o : Bool) : RepS L ext mem (.heap self 0 none) ⟨[], o⟩
  | owned (b : Nat) (cs t : List (Ch w)) (hb : mem.blocks b = some cs) (he : ext b = none)
    (hle : t.length ≤ cs.length) (ht : cs.take t.length = t) (hlt : t.length < 2 ^ 32) :
    RepS L ext mem (.heap true t.length (some (b, 0))) ⟨t, true⟩
  | ref (b off : Nat) (cs t : List (Ch w)) (he : ext b = some cs)
    (hle : off + t.length ≤ cs.length) (ht : slice cs off t.length = t) (hlt : t.length < 2 ^ 32) :
    RepS L ext mem (.heap false t.length (some (b, off))) ⟨t, false⟩

/-- Invariant of the whole state. -/
structure WF (L : Nat) (ext : Ext w) (st : St w) (m : Nat → Var w) : Prop where
  rep : ∀ x, RepS L ext st.mem (st.strs x) (m x)
  extLive : ∀ b cs, ext b = some cs → st.mem.blocks b = some cs
  fresh : ∀ b, st.mem.next ≤ b → st.mem.blocks b = none
  inj : ∀ x y b n k i j, st.strs x = .heap true n (some (b, i)) → st.strs y = .heap true k (some (b, j)) → x = y
  owned : ∀ b, st.mem.blocks b ≠ none → ext b ≠ none ∨ ∃ x n, st.strs x = .heap true n (some (b, 0))

/-- Assign variable `d`. -/
def upd {β : Type} (m : Nat → β) (d : Nat) (v : β) : Nat → β := fun x => if x = d then v else m x

@[simp] theorem upd_same {β : Type} (m : Nat → β) (d : Nat) (v : β) : upd m d v d = v := by simp [upd]
theorem upd_ne {β : Type} (m : Nat → β) {d x : Nat} (v : β) (h : x ≠ d) : upd m d v x = m x := by
  simp [upd, h]
theorem upd_upd {β : Type} (m : Nat → β) (d : Nat) (a b : β) : upd (upd m d a) d b = upd m d b := by
  funext x; simp only [upd]; split <;> rfl
theorem upd_self {β : Type} (m : Nat → β) (d : Nat) : upd m d (m d) = m := by
  funext x; simp only [upd]; split
  · next h => rw [h]
  · rfl

@[simp] theorem put_same (st : St w) (d : Nat) (s : Str w) : (st.put d s).strs d = s := by simp [St.put]
theorem put_ne (st : St w) {d x : Nat} (s : Str w) (h : x ≠ d) : (st.put d s).strs x = st.strs x := by
  simp [St.put, h]
@[simp] theorem put_mem (st : St w) (d : Nat) (s : Str w) : (st.put d s).mem = st.mem := rfl

/-- The variable keeps its meaning when its blocks keep their contents. -/
theorem RepS.frame {L : Nat} {ext : Ext w} {mem mem' : SMem w} {s : Str w} {v : Var w}
    (r : RepS L ext mem s v)
    (h : ∀ b n, s = .heap true n (some (b, 0)) → mem'.blocks b = mem.blocks b) : RepS L ext mem' s v := by
  cases r with
  | sso t o hl hn => exact .sso t o hl hn
  | null self o => exact .null self o
  | owned b cs t hb he hle ht hlt => exact .owned b cs t (by rw [h b _ rfl, hb]) he hle ht hlt
  | ref b off cs t he hle ht hlt => exact .ref b off cs t he hle ht hlt

theorem takeWhile_pad (t : List (Ch w)) (k : Nat) (hn : 0#w ∉ t) :
    (t ++ List.replicate k 0#w).takeWhile (· ≠ 0#w) = t := by
  induction t with
  | nil => cases k <;> simp [List.replicate_succ]
  | cons a t ih =>
    simp only [List.mem_cons, not_or] at hn
    have ha : decide (a ≠ 0#w) = true := by simp; intro e; exact hn.1 e.symm
    rw [List.cons_append, List.takeWhile_cons, if_pos ha, ih hn.2]

theorem slice_slice {α : Type} (l : List α) (o k off n : Nat) (h : off + n ≤ k) :
    slice l (o + off) n = slice (slice l o k) off n := by
  simp only [slice]
  rw [List.drop_take, List.take_take, Nat.min_eq_left (by omega), List.drop_drop]

theorem WF.size {L : Nat} {ext : Ext w} {st : St w} {m : Nat → Var w} (h : WF L ext st m) (x : Nat) :
    st.size x = (m x).text.length := by
  have r := h.rep x
  unfold St.size
  generalize st.strs x = s at r
  cases hv : m x with
  | mk t o =>
    rw [hv] at r
    cases r with
    | sso _ _ hl hn => simp only []; rw [takeWhile_pad _ _ hn]
    | null self => rfl
    | owned b cs t hb he hle ht hlt => rfl
    | ref b off cs t he hle ht hlt => rfl

/-- Any part of the text can be read through the data pointer. -/
theorem WF.readSub {L : Nat} {ext : Ext w} {st : St w} {m : Nat → Var w} (h : WF L ext st m) (x : Nat)
    {off n : Nat} (hle : off + n ≤ (m x).text.length) :
    st.read ((st.data x).add off) n = .ok (slice (m x).text off n) := by
  have r := h.rep x
  unfold St.data
  generalize hs : st.strs x = s at r
  cases hv : m x with
  | mk t o =>
    rw [hv] at r hle
    cases r with
    | sso _ _ hl hn =>
      simp only [Loc.add, St.read, readLoc, St.inl, hs]
      rw [if_pos (by simp at hle ⊢; omega)]
      simp only [slice]
      simp only at hle
      rw [Nat.zero_add, List.drop_append, List.take_append_of_le_length (by simp; omega)]
    | null self =>
      simp only [List.length_nil, Nat.le_zero_eq, Nat.add_eq_zero_iff] at hle
      simp [Loc.add, St.read, readLoc, hle.2, slice]
    | owned b cs t hb he hle' ht hlt =>
      simp only at hle
      simp only [Loc.add, St.read, readLoc, hb]
      rw [if_pos (by omega)]
      have := slice_slice cs 0 t.length off n hle
      rw [show slice cs 0 t.length = t by simpa [slice] using ht] at this
      rw [this]
    | ref b o' cs t he hle' ht hlt =>
      simp only at hle
      simp only [Loc.add, St.read, readLoc, h.extLive b cs he]
      rw [if_pos (by omega)]
      have := slice_slice cs o' t.length off n hle
      rw [ht] at this
      rw [this]

theorem add_zero (p : Loc) : p.add 0 = p := by cases p <;> rfl

theorem WF.read {L : Nat} {ext : Ext w} {st : St w} {m : Nat → Var w} (h : WF L ext st m) (x : Nat) :
    st.read (st.data x) (m x).text.length = .ok (m x).text := by
  have := h.readSub x (off := 0) (n := (m x).text.length) (by omega)
  rw [add_zero] at this
  rw [this]
  simp [slice]

theorem WF.view {L : Nat} {ext : Ext w} {st : St w} {m : Nat → Var w} (h : WF L ext st m) (x : Nat) :
    st.view x = .ok (m x).text := by
  unfold St.view; rw [h.size, h.read]

theorem WF.readExt {L : Nat} {ext : Ext w} {st : St w} {m : Nat → Var w} (h : WF L ext st m)
    {b off n : Nat} {cs : List (Ch w)} (he : ext b = some cs) (hle : off + n ≤ cs.length) :
    st.read (.mem b off) n = .ok (slice cs off n) := by
  simp [St.read, readLoc, h.extLive b cs he, hle]

/-- Replacing a variable that owns nothing by one that owns nothing (or by a fresh owner). -/
theorem WF.put {L : Nat} {ext : Ext w} {st : St w} {m : Nat → Var w} (h : WF L ext st m) {d : Nat}
    (hd : ∀ n b o, st.strs d ≠ .heap true n (some (b, o))) {s : Str w} {v : Var w}
    (hs : ∀ n b o, s ≠ .heap true n (some (b, o))) (r : RepS L ext st.mem s v) :
    WF L ext (st.put d s) (upd m d v) where
  rep := by
    intro x
    by_cases hx : x = d
    · subst hx; simpa using r
    · rw [put_ne _ _ hx, upd_ne _ _ hx]; exact h.rep x
  extLive := h.extLive
  fresh := h.fresh
  inj := by
    intro x y b n k i j hx hy
    by_cases hxd : x = d
    · subst hxd; rw [put_same] at hx; exact absurd hx (hs n b i)
    · by_cases hyd : y = d
      · subst hyd; rw [put_same] at hy; exact absurd hy (hs k b j)
      · rw [put_ne _ _ hxd] at hx; rw [put_ne _ _ hyd] at hy; exact h.inj x y b n k i j hx hy
  owned := by
    intro b hb
    rcases h.owned b hb with h1 | ⟨x, n, hx⟩
    · exact Or.inl h1
    · have hxd : x ≠ d := by intro e; subst e; exact hd n b 0 hx
      exact Or.inr ⟨x, n, by rw [put_ne _ _ hxd]; exact hx⟩

theorem reset_ok {L : Nat} {ext : Ext w} {st : St w} {m : Nat → Var w} (h : WF L ext st m) (d : Nat)
    (o : Bool) : ∃ st', reset st d = .ok st' ∧ WF L ext st' (upd m d ⟨[], o⟩) ∧ st'.strs d = .init ∧
      (∀ x, x ≠ d → st'.strs x = st.strs x) := by
  have r := h.rep d
  generalize hs : st.strs d = s at r
  have hother : (∀ n b o, s ≠ .heap true n (some (b, o))) →
      reset st d = .ok (st.put d .init) → ∃ st', reset st d = .ok st' ∧ WF L ext st' (upd m d ⟨[], o⟩) ∧
      st'.strs d = .init ∧ (∀ x, x ≠ d → st'.strs x = st.strs x) := by
    intro h1 h2
    refine ⟨_, h2, h.put (by rw [hs]; exact h1) (by intro n b o e; cases e) (.null false o), by simp, ?_⟩
    intro x hx; exact put_ne _ _ hx
  cases hv : m d with
  | mk t ow =>
    rw [hv] at r
    cases r with
    | sso _ _ hl hn => exact hother (by intro n b o e; cases e) (by simp [reset, hs])
    | null self =>
      exact hother (by intro n b o e; cases e) (by simp [reset, hs])
    | ref b off cs t he hle ht hlt =>
      exact hother (by intro n b o e; cases e) (by simp [reset, hs])
    | owned b cs t hb he hle ht hlt =>
      refine ⟨{ st with mem := st.mem.setBlk b none }.put d .init,
        by simp [reset, hs, SMem.free, hb, bind, Except.bind, pure, Except.pure], ?_, by simp, ?_⟩
      · refine { rep := ?_, extLive := ?_, fresh := ?_, inj := ?_, owned := ?_ }
        · intro x
          by_cases hx : x = d
          · subst hx; simp only [put_same, upd_same]; exact .null false o
          · rw [put_ne _ _ hx, upd_ne _ _ hx]
            refine (h.rep x).frame ?_
            intro b' n hx'
            have : b' ≠ b := by
              intro e; subst e; exact hx (h.inj x d b' _ _ _ _ hx' hs)
            simp [SMem.setBlk, this]
        · intro b' cs' he'
          have : b' ≠ b := by intro e; subst e; rw [he] at he'; cases he'
          simp only [put_mem, SMem.setBlk, if_neg this]; exact h.extLive b' cs' he'
        · intro b' hb'
          simp only [put_mem, SMem.setBlk]
          split
          · rfl
          · exact h.fresh b' hb'
        · intro x y b' n k i j hx hy
          by_cases hxd : x = d
          · subst hxd; rw [put_same] at hx; cases hx
          · by_cases hyd : y = d
            · subst hyd; rw [put_same] at hy; cases hy
            · rw [put_ne _ _ hxd] at hx; rw [put_ne _ _ hyd] at hy; exact h.inj x y b' n k i j hx hy
        · intro b' hb'
          simp only [put_mem, SMem.setBlk] at hb'
          split at hb'
          · exact absurd rfl hb'
          · next hbb =>
            rcases h.owned b' hb' with h1 | ⟨x, n, hx⟩
            · exact Or.inl h1
            · have hxd : x ≠ d := by
                intro e; subst e; rw [hs] at hx; cases hx; exact hbb rfl
              exact Or.inr ⟨x, n, by rw [put_ne _ _ hxd]; exact hx⟩
      · intro x hx; exact put_ne _ _ hx

theorem not_owner_init (st : St w) (d : Nat) (h : st.strs d = .init) :
    ∀ n b o, st.strs d ≠ .heap true n (some (b, o)) := by
  intro n b o e; rw [h] at e; cases e

/-- A fresh owned block for a variable that owns nothing. -/
theorem WF.putOwned {L : Nat} {ext : Ext w} {st : St w} {m : Nat → Var w} (h : WF L ext st m) {d : Nat}
    (hd : ∀ n b o, st.strs d ≠ .heap true n (some (b, o))) (cs : List (Ch w)) (hlt : cs.length < 2 ^ 32) :
    WF L ext ({ st with mem := (st.mem.alloc cs).1 }.put d (.heap true cs.length (some ((st.mem.alloc cs).2, 0))))
      (upd m d ⟨cs, true⟩) := by
  have hnext : ext st.mem.next = none := by
    cases he : ext st.mem.next with
    | none => rfl
    | some c => have := h.extLive _ _ he; rw [h.fresh _ (Nat.le_refl _)] at this; cases this
  have hown : ∀ x n b i, st.strs x = .heap true n (some (b, i)) → b < st.mem.next := by
    intro x n b i hx
    have r := h.rep x
    rw [hx] at r
    generalize m x = v at r
    cases r with
    | owned _ cs t hb he hle ht hlt =>
      by_cases hb' : b < st.mem.next
      · exact hb'
      · rw [h.fresh b (by omega)] at hb; cases hb
  refine { rep := ?_, extLive := ?_, fresh := ?_, inj := ?_, owned := ?_ }
  · intro x
    by_cases hx : x = d
    · subst hx
      simp only [put_same, upd_same]
      exact .owned _ cs cs (by simp [SMem.alloc]) hnext (Nat.le_refl _) (by simp) hlt
    · rw [put_ne _ _ hx, upd_ne _ _ hx]
      refine (h.rep x).frame ?_
      intro b n hx'
      have := hown x n b 0 hx'
      simp only [put_mem, SMem.alloc]
      rw [if_neg (by omega)]
  · intro b c he
    have : b ≠ st.mem.next := by intro e; subst e; rw [hnext] at he; cases he
    simp only [put_mem, SMem.alloc, if_neg this]; exact h.extLive b c he
  · intro b hb
    simp only [put_mem, SMem.alloc] at hb ⊢
    rw [if_neg (by omega)]; exact h.fresh b (by omega)
  · intro x y b n k i j hx hy
    by_cases hxd : x = d
    · by_cases hyd : y = d
      · rw [hxd, hyd]
      · subst hxd; rw [put_same] at hx; rw [put_ne _ _ hyd] at hy
        have := hown y k b j hy
        simp only [SMem.alloc] at hx; cases hx; omega
    · by_cases hyd : y = d
      · subst hyd; rw [put_same] at hy; rw [put_ne _ _ hxd] at hx
        have := hown x n b i hx
        simp only [SMem.alloc] at hy; cases hy; omega
      · rw [put_ne _ _ hxd] at hx; rw [put_ne _ _ hyd] at hy; exact h.inj x y b n k i j hx hy
  · intro b hb
    simp only [put_mem, SMem.alloc] at hb
    split at hb
    · next e => subst e; exact Or.inr ⟨d, cs.length, by simp [SMem.alloc]⟩
    · rcases h.owned b hb with h1 | ⟨x, n, hx⟩
      · exact Or.inl h1
      · have hxd : x ≠ d := by intro e; subst e; exact hd n b 0 hx
        exact Or.inr ⟨x, n, by rw [put_ne _ _ hxd]; exact hx⟩

/-- A text may be stored inline. -/
def NoShortNul (L : Nat) (t : List (Ch w)) : Prop := t.length ≤ L → 0#w ∉ t

/-- `set_owning` when the source survives the `reset()`. -/
theorem setOwning_ok {L : Nat} {ext : Ext w} {st : St w} {m : Nat → Var w} (h : WF L ext st m) (d : Nat)
    {src : Loc} {t : List (Ch w)} (hr : ∀ st', reset st d = .ok st' → WF L ext st' (upd m d ⟨[], true⟩) →
      (∀ x, x ≠ d → st'.strs x = st.strs x) → st'.read src t.length = .ok t)
    (hnull : src = .null → t = []) (hn : NoShortNul L t) (hlt : t.length < 2 ^ 32) :
    ∃ st', setOwning L st d src t.length = .ok st' ∧ WF L ext st' (upd m d ⟨t, true⟩) ∧
      (∀ x, x ≠ d → st'.strs x = st.strs x) := by
  obtain ⟨st1, e1, w1, hi, hx1⟩ := reset_ok h d true
  have hrd := hr st1 e1 w1 hx1
  unfold setOwning
  rw [e1]
  simp only [bind, Except.bind, pure, Except.pure]
  by_cases hz : src = .null ∨ t.length = 0
  · rw [if_pos hz]
    have ht : t = [] := by
      rcases hz with hz | hz
      · exact hnull hz
      · exact List.length_eq_zero_iff.1 hz
    subst ht
    exact ⟨st1, rfl, w1, hx1⟩
  · rw [if_neg hz, hrd]
    simp only []
    by_cases hL : t.length ≤ L
    · rw [if_pos hL]
      refine ⟨_, rfl, ?_, fun x hx => by rw [put_ne _ _ hx]; exact hx1 x hx⟩
      have := w1.put (not_owner_init st1 d hi) (s := .sso (t ++ List.replicate (L - t.length) 0#w))
        (by intro n b o e; cases e) (.sso t true hL (hn hL))
      rwa [upd_upd] at this
    · rw [if_neg hL]
      refine ⟨_, rfl, ?_, fun x hx => by rw [put_ne _ _ hx]; exact hx1 x hx⟩
      have := w1.putOwned (not_owner_init st1 d hi) t hlt
      rwa [upd_upd] at this

theorem put_put (st : St w) (d : Nat) (a b : Str w) : (st.put d a).put d b = st.put d b := by
  simp only [St.put, St.mk.injEq, true_and]; funext x; split <;> rfl

theorem put_id (st : St w) (d : Nat) : st.put d (st.strs d) = st := by
  cases st; simp only [St.put, St.mk.injEq, true_and]; funext x; split
  · next h => rw [h]
  · rfl

theorem reset_init (st : St w) (d : Nat) (h : st.strs d = .init) : reset st d = .ok st := by
  unfold reset
  rw [h]
  simp only [Str.init]
  have := put_id st d
  rw [h] at this
  rw [← Str.init, this]

/-- `set_non_owning` when the source is external memory, another variable without own memory, or
(for long texts) the variable itself. -/
theorem setNonOwning_ok {L : Nat} {ext : Ext w} {st : St w} {m : Nat → Var w} (h : WF L ext st m) (d : Nat)
    {src : Loc} {t : List (Ch w)} (hr : t.length ≤ L → ∀ st', reset st d = .ok st' →
      WF L ext st' (upd m d ⟨[], false⟩) → (∀ x, x ≠ d → st'.strs x = st.strs x) →
      st'.read src t.length = .ok t)
    (hext : L < t.length → ∃ b o cs, src = .mem b o ∧ ext b = some cs ∧ o + t.length ≤ cs.length ∧
      slice cs o t.length = t)
    (hnull : src = .null → t = []) (hn : NoShortNul L t) (hlt : t.length < 2 ^ 32) :
    ∃ st', setNonOwning L st d src t.length = .ok st' ∧ WF L ext st' (upd m d ⟨t, false⟩) := by
  obtain ⟨st1, e1, w1, hi, hx1⟩ := reset_ok h d false
  unfold setNonOwning
  rw [e1]
  simp only [bind, Except.bind, pure, Except.pure]
  by_cases hz : src = .null ∨ t.length = 0
  · rw [if_pos hz]
    have ht : t = [] := by
      rcases hz with hz | hz
      · exact hnull hz
      · exact List.length_eq_zero_iff.1 hz
    subst ht
    exact ⟨st1, rfl, w1⟩
  · rw [if_neg hz]
    by_cases hL : t.length ≤ L
    · rw [if_pos hL]
      unfold setOwning
      rw [reset_init st1 d hi]
      simp only [bind, Except.bind, pure, Except.pure]
      rw [if_neg hz, hr hL st1 e1 w1 hx1]
      simp only [if_pos hL]
      refine ⟨_, rfl, ?_⟩
      have := w1.put (not_owner_init st1 d hi) (s := .sso (t ++ List.replicate (L - t.length) 0#w))
        (by intro n b o e; cases e) (.sso t false hL (hn hL))
      rwa [upd_upd] at this
    · rw [if_neg hL]
      obtain ⟨b, o, cs, rfl, he, hle, hsl⟩ := hext (by omega)
      refine ⟨_, rfl, ?_⟩
      have := w1.put (not_owner_init st1 d hi) (s := .heap false t.length (some (b, o)))
        (by intro n b o e; cases e) (.ref b o cs t he hle hsl hlt)
      rwa [upd_upd] at this

end Cista.Str

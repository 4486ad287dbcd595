import Verif.Str.Lemmas

set_option linter.unusedSimpArgs false

/-! # Strings: remaining per-operation lemmas -/
namespace Cista.Str

variable {w : Nat}

theorem eraseBuf (t rest : List (Ch w)) (pos n : Nat) (h : pos + n ≤ t.length) :
    memzero (memmove (t ++ rest) pos (pos + n) (t.length - (pos + n))) (t.length - n) n =
      (t.take pos ++ t.drop (pos + n)) ++ (List.replicate n 0#w ++ rest) := by
  have h1 : memmove (t ++ rest) pos (pos + n) (t.length - (pos + n)) =
      (t.take pos ++ t.drop (pos + n)) ++ (t ++ rest).drop (t.length - n) := by
    simp only [memmove, slice]
    rw [List.take_append_of_le_length (by omega), List.drop_append_of_le_length (by omega : pos + n ≤ t.length),
      List.take_append_of_le_length (l₁ := t.drop (pos + n)) (by rw [List.length_drop]; omega),
      List.take_of_length_le (l := t.drop (pos + n)) (by rw [List.length_drop]; omega),
      show pos + (t.length - (pos + n)) = t.length - n by omega]
  have hlen : (t.take pos ++ t.drop (pos + n)).length = t.length - n := by simp; omega
  rw [h1]
  simp only [memzero]
  rw [List.take_left' hlen, ← hlen, List.drop_append, hlen, List.drop_drop]
  rw [show (t.length - n + n - (t.length - n)) = n by omega, show t.length - n + n = t.length by omega,
    List.drop_of_length_le (l := t.take pos ++ t.drop (pos + n)) (i := t.length) (by rw [hlen]; omega)]
  simp

theorem own_ok {L : Nat} {ext : Ext w} {st : St w} {m : Nat → Var w} (h : WF L ext st m) (d : Nat)
    (hn : NoShortNul L (m d).text) :
    ∃ st', own L st d = .ok st' ∧ WF L ext st' (upd m d ⟨(m d).text, true⟩) := by
  have r := h.rep d
  unfold own
  generalize hs : st.strs d = s at r
  have hself : ∀ (o : Bool) , m d = ⟨(m d).text, o⟩ → RepS L ext st.mem s ⟨(m d).text, true⟩ →
      WF L ext st (upd m d ⟨(m d).text, true⟩) := by
    intro o _ r'
    refine { rep := ?_, extLive := h.extLive, fresh := h.fresh, inj := h.inj, owned := h.owned }
    intro x
    by_cases hx : x = d
    · subst hx; rw [upd_same, hs]; exact r'
    · rw [upd_ne _ _ hx]; exact h.rep x
  cases hv : m d with
  | mk t ow =>
    rw [hv] at r hself
    cases r with
    | sso _ _ hl hn' => exact ⟨st, rfl, hself _ rfl (.sso t true hl hn')⟩
    | owned b cs t hb he hle ht hlt => exact ⟨st, rfl, hself _ rfl (.owned b cs t hb he hle ht hlt)⟩
    | null self =>
      cases self with
      | true => exact ⟨st, rfl, hself _ rfl (.null true true)⟩
      | false =>
        have hd : st.data d = .null := by simp [St.data, hs]
        have hz : st.size d = 0 := by simp [St.size, hs]
        simp only [hd, hz, setOwningView]
        obtain ⟨st', e, w', _⟩ := setOwning_ok h d (src := .null) (t := [])
          (by intros; simp [St.read, readLoc]) (by intros; rfl) (by intro _ h; cases h) (by simp)
        exact ⟨st', e, w'⟩
    | ref b off cs t he hle ht hlt =>
      have hd : st.data d = .mem b off := by simp [St.data, hs]
      have hz : st.size d = t.length := by simp [St.size, hs]
      simp only [hd, hz, setOwningView]
      rw [Nat.mod_eq_of_lt hlt]
      obtain ⟨st', e, w', _⟩ := setOwning_ok h d (src := .mem b off) (t := t)
        (by intro st' _ w' _; rw [w'.readExt he hle, ht]) (by intro e; cases e)
        (by rw [hv] at hn; exact hn) hlt
      exact ⟨st', e, w'⟩

theorem WF.setOwned {L : Nat} {ext : Ext w} {st : St w} {m : Nat → Var w} (h : WF L ext st m) {d b n : Nat}
    (hs : st.strs d = .heap true n (some (b, 0))) {cs t : List (Ch w)} (hcs : ∃ c, st.mem.blocks b = some c)
    (he : ext b = none) (hle : t.length ≤ cs.length) (ht : cs.take t.length = t) (hlt : t.length < 2 ^ 32) :
    WF L ext ({ st with mem := st.mem.setBlk b (some cs) }.put d (.heap true t.length (some (b, 0))))
      (upd m d ⟨t, true⟩) := by
  refine { rep := ?_, extLive := ?_, fresh := ?_, inj := ?_, owned := ?_ }
  · intro x
    by_cases hx : x = d
    · subst hx; rw [put_same, upd_same]
      exact .owned b cs t (by simp [SMem.setBlk]) he hle ht hlt
    · rw [put_ne _ _ hx, upd_ne _ _ hx]
      refine (h.rep x).frame ?_
      intro b' k hx'
      have : b' ≠ b := by intro e; subst e; exact hx (h.inj x d b' _ _ _ _ hx' hs)
      simp [SMem.setBlk, this]
  · intro b' c he'
    have : b' ≠ b := by intro e; subst e; rw [he] at he'; cases he'
    simp only [put_mem, SMem.setBlk, if_neg this]; exact h.extLive b' c he'
  · intro b' hb'
    have : b' ≠ b := by
      intro e; subst e
      obtain ⟨c, hc⟩ := hcs
      have := h.fresh b' hb'
      rw [hc] at this; cases this
    simp only [put_mem, SMem.setBlk, if_neg this]; exact h.fresh b' hb'
  · have key : ∀ x n' b' i, ({ st with mem := st.mem.setBlk b (some cs) }.put d
        (.heap true t.length (some (b, 0)))).strs x = .heap true n' (some (b', i)) →
        ∃ k j, st.strs x = .heap true k (some (b', j)) := by
      intro x n' b' i hx
      by_cases hxd : x = d
      · subst hxd; rw [put_same] at hx; cases hx; exact ⟨n, 0, hs⟩
      · rw [put_ne _ _ hxd] at hx; exact ⟨n', i, hx⟩
    intro x y b' n' k i j hx hy
    obtain ⟨_, _, hx'⟩ := key x _ _ _ hx
    obtain ⟨_, _, hy'⟩ := key y _ _ _ hy
    exact h.inj x y b' _ _ _ _ hx' hy'
  · intro b' hb'
    by_cases hbb : b' = b
    · subst hbb; exact Or.inr ⟨d, t.length, by rw [put_same]⟩
    · simp only [put_mem, SMem.setBlk, if_neg hbb] at hb'
      rcases h.owned b' hb' with h1 | ⟨x, k, hx⟩
      · exact Or.inl h1
      · have hxd : x ≠ d := by intro e; subst e; rw [hs] at hx; cases hx; exact hbb rfl
        exact Or.inr ⟨x, k, by rw [put_ne _ _ hxd]; exact hx⟩

theorem eraseIn_ok {L : Nat} {ext : Ext w} {st : St w} {m : Nat → Var w} (h : WF L ext st m) {d pos n : Nat}
    (ho : (m d).own = true) (hp : pos + n ≤ (m d).text.length) :
    ∃ st', eraseIn st d pos n = .ok st' ∧
      WF L ext st' (upd m d ⟨(m d).text.take pos ++ (m d).text.drop (pos + n), true⟩) := by
  have r := h.rep d
  have hsz := h.size d
  unfold eraseIn
  simp only [hsz, hp, decide_true, require_true, bind, Except.bind, pure, Except.pure]
  generalize hs : st.strs d = s at r
  cases hv : m d with
  | mk t ow =>
    rw [hv] at r hp ho
    simp only at ho hp
    subst ho
    cases r with
    | sso _ _ hl hn =>
      simp only []
      rw [eraseBuf _ _ _ _ hp]
      refine ⟨_, rfl, ?_⟩
      refine h.put (by rw [hs]; intro n b o e; cases e) (by intro n b o e; cases e) ?_
      have hlen : (t.take pos ++ t.drop (pos + n)).length = t.length - n := by simp; omega
      have := RepS.sso (w := w) (L := L) (ext := ext) (mem := st.mem) (t.take pos ++ t.drop (pos + n)) true
        (by rw [hlen]; omega) (by
          intro hm
          rcases List.mem_append.1 hm with h1 | h1
          · exact hn (List.mem_of_mem_take h1)
          · exact hn (List.mem_of_mem_drop h1))
      rw [hlen] at this
      rw [List.replicate_append_replicate, show n + (L - t.length) = L - (t.length - n) by omega]
      exact this
    | null self =>
      simp only [List.length_nil, Nat.le_zero_eq, Nat.add_eq_zero_iff] at hp
      refine ⟨_, rfl, ?_⟩
      simp only [List.take_nil, List.drop_nil, List.append_nil, List.length_nil, Nat.zero_sub]
      exact h.put (by rw [hs]; intro n b o e; cases e) (by intro n b o e; cases e) (.null self true)
    | owned b cs t hb he hle ht hlt =>
      have hcs : cs = t ++ cs.drop t.length := by
        have := List.take_append_drop t.length cs
        rw [ht] at this; exact this.symm
      simp only [hb, Nat.zero_add, hle, decide_true, require_true]
      refine ⟨_, rfl, ?_⟩
      have hlen : (t.take pos ++ t.drop (pos + n)).length = t.length - n := by simp; omega
      have hbuf : memzero (memmove cs pos (pos + n) (t.length - (pos + n))) (t.length - n) n =
          (t.take pos ++ t.drop (pos + n)) ++ (List.replicate n 0#w ++ cs.drop t.length) := by
        have := eraseBuf t (cs.drop t.length) pos n hp
        rwa [← hcs] at this
      rw [hbuf]
      have := h.setOwned hs (cs := (t.take pos ++ t.drop (pos + n)) ++ (List.replicate n 0#w ++ cs.drop t.length))
        (t := t.take pos ++ t.drop (pos + n)) ⟨cs, hb⟩ he (by rw [List.length_append (bs := _ ++ _)]; omega)
        (List.take_left' rfl) (by rw [hlen]; omega)
      rw [hlen] at this
      exact this

theorem erase_ok {L : Nat} {ext : Ext w} {st : St w} {m : Nat → Var w} (h : WF L ext st m) {d pos n : Nat}
    (hn : NoShortNul L (m d).text) (hp : pos + n ≤ (m d).text.length) :
    ∃ st', erase L st d pos n = .ok st' ∧
      WF L ext st' (upd m d ⟨(m d).text.take pos ++ (m d).text.drop (pos + n), true⟩) := by
  obtain ⟨st1, e1, w1⟩ := own_ok h d hn
  obtain ⟨st2, e2, w2⟩ := eraseIn_ok w1 (d := d) (pos := pos) (n := n) (by simp) (by simpa using hp)
  refine ⟨st2, by simp [erase, e1, e2, bind, Except.bind], ?_⟩
  rw [upd_upd, upd_same] at w2
  exact w2

theorem write_ok {L : Nat} {ext : Ext w} {st : St w} {m : Nat → Var w} (h : WF L ext st m) {d i : Nat}
    (ho : (m d).own = true) (hi : i < (m d).text.length) (c : Ch w) (hc : (m d).text.length ≤ L → c ≠ 0#w) :
    ∃ st', write st d i c = .ok st' ∧ WF L ext st' (upd m d ⟨(m d).text.set i c, true⟩) := by
  have r := h.rep d
  have hsz := h.size d
  unfold write
  simp only [hsz, hi, decide_true, require_true, bind, Except.bind, pure, Except.pure]
  generalize hs : st.strs d = s at r
  cases hv : m d with
  | mk t ow =>
    rw [hv] at r hi ho hc
    simp only at ho hi hc
    subst ho
    cases r with
    | sso _ _ hl hn =>
      simp only []
      rw [List.set_append_left _ _ hi]
      refine ⟨_, rfl, h.put (by rw [hs]; intro n b o e; cases e) (by intro n b o e; cases e) ?_⟩
      have := RepS.sso (w := w) (L := L) (ext := ext) (mem := st.mem) (t.set i c) true (by simpa using hl) (by
        intro hm
        rcases List.mem_or_eq_of_mem_set hm with h1 | h1
        · exact hn h1
        · exact hc hl h1.symm)
      simpa using this
    | null self => simp at hi
    | owned b cs t hb he hle ht hlt =>
      simp only [hb, Nat.zero_add]
      rw [show decide (i < cs.length) = true by simp; omega]
      simp only [require_true]
      refine ⟨_, rfl, ?_⟩
      have := h.setOwned hs (cs := cs.set i c) (t := t.set i c) ⟨cs, hb⟩ he (by simpa using hle)
        (by rw [List.length_set, List.take_set, ht]) (by simpa using hlt)
      simpa using this

theorem moveFrom_ok {L : Nat} {ext : Ext w} {st : St w} {m : Nat → Var w} (h : WF L ext st m) (raw : Bool)
    {d x : Nat} (hne : d ≠ x) : ∃ st' v, moveFrom raw st d x = .ok st' ∧
      (v.text = [] ∨ v.text = (m x).text) ∧ v.own = (m x).own ∧
      WF L ext st' (upd (upd m d (m x)) x v) := by
  obtain ⟨st1, e1, w1, hi, hx1⟩ := reset_ok h d true
  have hxd : x ≠ d := fun e => hne e.symm
  unfold moveFrom
  rw [if_neg hne, e1]
  simp only [bind, Except.bind, pure, Except.pure]
  have hsx : st1.strs x = st.strs x := hx1 x hxd
  have r := w1.rep x
  rw [upd_ne _ _ hxd] at r
  -- swapping the representation from `x` to `d`, leaving `s'` (owning nothing) in `x`
  have swap : ∀ (s' : Str w) (v : Var w), (∀ n b o, s' ≠ .heap true n (some (b, o))) →
      RepS L ext st1.mem s' v →
      WF L ext ((st1.put d (st1.strs x)).put x s') (upd (upd m d (m x)) x v) := by
    intro s' v hs' rv
    have hdx : d ≠ x := hne
    have key : ∀ y n b i, ((st1.put d (st1.strs x)).put x s').strs y = .heap true n (some (b, i)) →
        (y = d ∧ st1.strs x = .heap true n (some (b, i))) ∨
        (y ≠ d ∧ y ≠ x ∧ st1.strs y = .heap true n (some (b, i))) := by
      intro y n b i hy
      by_cases hyx : y = x
      · subst hyx; rw [put_same] at hy; exact absurd hy (hs' n b i)
      · rw [put_ne _ _ hyx] at hy
        by_cases hyd : y = d
        · subst hyd; rw [put_same] at hy; exact Or.inl ⟨rfl, hy⟩
        · rw [put_ne _ _ hyd] at hy; exact Or.inr ⟨hyd, hyx, hy⟩
    refine { rep := ?_, extLive := w1.extLive, fresh := w1.fresh, inj := ?_, owned := ?_ }
    · intro y
      by_cases hyx : y = x
      · subst hyx; rw [put_same, upd_same]; exact rv
      · rw [put_ne _ _ hyx, upd_ne _ _ hyx]
        by_cases hyd : y = d
        · subst hyd; rw [put_same, upd_same]; exact r
        · rw [put_ne _ _ hyd, upd_ne _ _ hyd]
          have := w1.rep y
          rw [upd_ne _ _ hyd] at this
          exact this
    · intro y z b n k i j hy hz
      rcases key _ _ _ _ hy with ⟨ey, hy'⟩ | ⟨hyd, hyx, hy'⟩
      · rcases key _ _ _ _ hz with ⟨ez, hz'⟩ | ⟨hzd, hzx, hz'⟩
        · rw [ey, ez]
        · exact absurd (w1.inj _ _ _ _ _ _ _ hz' hy') hzx
      · rcases key _ _ _ _ hz with ⟨ez, hz'⟩ | ⟨hzd, hzx, hz'⟩
        · exact absurd (w1.inj _ _ _ _ _ _ _ hy' hz') hyx
        · exact w1.inj _ _ _ _ _ _ _ hy' hz'
    · intro b hb
      rcases w1.owned b hb with h1 | ⟨y, n, hy⟩
      · exact Or.inl h1
      · by_cases hyx : y = x
        · subst hyx
          exact Or.inr ⟨d, n, by rw [put_ne _ _ hdx, put_same]; exact hy⟩
        · have hyd : y ≠ d := by intro e; subst e; rw [hi] at hy; cases hy
          exact Or.inr ⟨y, n, by rw [put_ne _ _ hyx, put_ne _ _ hyd]; exact hy⟩
  cases raw with
  | true => exact ⟨_, ⟨[], (m x).own⟩, rfl, Or.inl rfl, rfl, swap .init _ (by intro n b o e; cases e) (.null _ _)⟩
  | false =>
    simp only [Bool.false_eq_true, if_false]
    generalize hs : st1.strs x = s at r swap
    cases s with
    | sso c =>
      refine ⟨_, m x, rfl, Or.inr rfl, rfl, ?_⟩
      have hput : (st1.put d (.sso c)).put x (.sso c) = st1.put d (.sso c) := by
        have := put_id (st1.put d (.sso c)) x
        rw [put_ne _ _ hxd, hs] at this
        exact this
      have := swap (.sso c) (m x) (by intro n b o e; cases e) r
      rw [hput] at this
      exact this
    | heap self n p =>
      exact ⟨_, ⟨[], (m x).own⟩, rfl, Or.inl rfl, rfl,
        swap (.heap self 0 none) _ (by intro n b o e; cases e) (.null _ _)⟩

/-- Reading another variable's text after `d` was reset. -/
theorem read_other {L : Nat} {ext : Ext w} {st st' : St w} {m : Nat → Var w} {o : Bool} {d x : Nat}
    (hne : x ≠ d) (w' : WF L ext st' (upd m d ⟨[], o⟩)) (hx : ∀ x, x ≠ d → st'.strs x = st.strs x)
    {off n : Nat} (hle : off + n ≤ (m x).text.length) :
    st'.read ((st.data x).add off) n = .ok (slice (m x).text off n) := by
  have := w'.readSub x (off := off) (n := n) (by rw [upd_ne _ _ hne]; exact hle)
  rw [upd_ne _ _ hne] at this
  have hd : st'.data x = st.data x := by simp only [St.data, hx x hne]
  rw [← hd]; exact this

theorem data_null {L : Nat} {ext : Ext w} {st : St w} {m : Nat → Var w} (h : WF L ext st m) {x : Nat}
    (hd : st.data x = .null) : (m x).text = [] := by
  have r := h.rep x
  unfold St.data at hd
  generalize st.strs x = s at r hd
  cases hv : m x with
  | mk t o =>
    rw [hv] at r
    cases r with
    | sso _ _ hl hn => simp at hd
    | null self => rfl
    | owned b cs t hb he hle ht hlt => simp at hd
    | ref b off cs t he hle ht hlt => simp at hd

theorem WF.short_or {L : Nat} {ext : Ext w} {st : St w} {m : Nat → Var w} (h : WF L ext st m) (x : Nat)
    (hL : L < 2 ^ 32) : (m x).text.length < 2 ^ 32 := by
  have r := h.rep x
  generalize st.strs x = s at r
  cases hv : m x with
  | mk t o =>
    rw [hv] at r
    cases r with
    | sso _ _ hl hn => simp only; omega
    | null self => simp
    | owned b cs t hb he hle ht hlt => exact hlt
    | ref b off cs t he hle ht hlt => exact hlt

/-- `set_owning(x.data(), x.size())` for another variable. -/
theorem setOwningVar_ok {L : Nat} (hL : L < 2 ^ 32) {ext : Ext w} {st : St w} {m : Nat → Var w}
    (h : WF L ext st m) {d x : Nat} (hne : x ≠ d) (hn : NoShortNul L (m x).text) :
    ∃ st', setOwning L st d (st.data x) (st.size x) = .ok st' ∧ WF L ext st' (upd m d ⟨(m x).text, true⟩) := by
  rw [h.size]
  obtain ⟨st', e, w', _⟩ := setOwning_ok h d (src := st.data x) (t := (m x).text)
    (by
      intro st' _ w' hx
      have := read_other hne w' hx (off := 0) (n := (m x).text.length) (by omega)
      rw [add_zero] at this
      rw [this]; simp [slice])
    (fun e => data_null h e) hn (h.short_or x hL)
  exact ⟨st', e, w'⟩

/-- `set_non_owning(x.data(), x.size())` for a variable that does not own memory. -/
theorem assignView_ok {L : Nat} (hL : L < 2 ^ 32) {ext : Ext w} {st : St w} {m : Nat → Var w}
    (h : WF L ext st m) {d x : Nat} (ho : (m x).own = false) (hne : x = d → L < (m x).text.length)
    (hn : NoShortNul L (m x).text) :
    ∃ st', assignView L st d x = .ok st' ∧ WF L ext st' (upd m d ⟨(m x).text, false⟩) := by
  unfold assignView
  rw [h.size]
  refine setNonOwning_ok h d (src := st.data x) (t := (m x).text) ?_ ?_ (fun e => data_null h e) hn
    (h.short_or x hL)
  · intro hs st' _ w' hx
    have hne' : x ≠ d := by intro e; have := hne e; omega
    have := read_other hne' w' hx (off := 0) (n := (m x).text.length) (by omega)
    rw [add_zero] at this
    rw [this]; simp [slice]
  · intro hlong
    have r := h.rep x
    unfold St.data
    generalize st.strs x = s at r
    cases hv : m x with
    | mk t o =>
      rw [hv] at r ho hlong
      simp only at ho hlong
      cases r with
      | sso _ _ hl hn => omega
      | null self => simp at hlong
      | owned b cs t hb he hle ht hlt => cases ho
      | ref b off cs t he hle ht hlt => exact ⟨b, off, cs, rfl, he, hle, ht⟩

theorem copyFrom_ok {L : Nat} (hL : L < 2 ^ 32) {ext : Ext w} {st : St w} {m : Nat → Var w}
    (h : WF L ext st m) {d x : Nat} (hne : x ≠ d) (hn : NoShortNul L (m x).text) :
    ∃ st', copyFrom L st d x = .ok st' ∧ WF L ext st' (upd m d (m x)) := by
  obtain ⟨st1, e1, w1, hi, hx1⟩ := reset_ok h d true
  unfold copyFrom
  rw [if_neg (fun e => hne e.symm), e1]
  simp only [bind, Except.bind, pure, Except.pure]
  have hm : upd m d ⟨[], true⟩ x = m x := upd_ne _ _ hne
  have hsz1 : st1.size x = (m x).text.length := by rw [w1.size x, hm]
  have r := w1.rep x
  rw [hm] at r
  generalize hs : st1.strs x = s at r
  cases hv : m x with
  | mk t o =>
    rw [hv] at r hn
    simp only at hn
    cases r with
    | sso _ _ hl hn' =>
      refine ⟨_, rfl, ?_⟩
      have := w1.put (not_owner_init st1 d hi) (s := .sso (t ++ List.replicate (L - t.length) 0#w))
        (by intro n b o e; cases e) (.sso t o hl hn')
      rwa [upd_upd] at this
    | null self =>
      have hd : st1.data x = .null := by simp [St.data, hs]
      have hr : reset st1 d = .ok st1 := reset_init st1 d hi
      have hw : WF L ext st1 (upd m d ⟨[], o⟩) := by
        have := w1.put (not_owner_init st1 d hi) (s := .init) (by intro n b o e; cases e) (.null false o)
        rw [upd_upd, ← hi, put_id] at this
        exact this
      cases self with
      | true => exact ⟨st1, by simp [setOwning, hd, hr, bind, Except.bind, pure, Except.pure], hw⟩
      | false => exact ⟨st1, by simp [setNonOwning, hd, hr, bind, Except.bind, pure, Except.pure], hw⟩
    | owned b cs t hb he hle ht hlt =>
      obtain ⟨st', e, w'⟩ := setOwningVar_ok hL w1 hne (by rw [hm, hv]; exact hn)
      refine ⟨st', e, ?_⟩
      rw [upd_upd, hm, hv] at w'
      exact w'
    | ref b off cs t he hle ht hlt =>
      obtain ⟨st', e, w'⟩ := assignView_ok hL w1 (d := d) (x := x) (by rw [hm, hv])
        (fun e => absurd e hne) (by rw [hm, hv]; exact hn)
      refine ⟨st', e, ?_⟩
      rw [upd_upd, hm, hv] at w'
      exact w'

theorem mstrlen_ok {L : Nat} {ext : Ext w} {st : St w} {m : Nat → Var w} (h : WF L ext st m) {b off : Nat}
    {cs : List (Ch w)} (he : ext b = some cs)
    (hz : off + ((cs.drop off).takeWhile (· ≠ 0#w)).length < cs.length)
    (hlt : ((cs.drop off).takeWhile (· ≠ 0#w)).length < 2 ^ 32) :
    mstrlen st b off = .ok ((cs.drop off).takeWhile (· ≠ 0#w)).length := by
  unfold mstrlen
  rw [h.extLive b cs he]
  simp only []
  rw [if_pos hz, Nat.mod_eq_of_lt hlt]

theorem slice_takeWhile (cs : List (Ch w)) (off : Nat) :
    slice cs off ((cs.drop off).takeWhile (· ≠ 0#w)).length = (cs.drop off).takeWhile (· ≠ 0#w) := by
  simp only [slice]
  have h : (cs.drop off).takeWhile (· ≠ 0#w) <+: cs.drop off := List.takeWhile_prefix _
  exact (List.prefix_iff_eq_take.1 h).symm

end Cista.Str

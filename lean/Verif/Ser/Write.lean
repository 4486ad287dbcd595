import Verif.Ser.Lay

/-!
# The serializer writes the layout
-/
set_option linter.unusedSimpArgs false
set_option linter.unusedSectionVars false

namespace Cista.Ser

/-! ## Valid source values -/

/-- The bytes at `a` are a live value of the type: flags are valid bools, indices select an alternative, vectors with elements have
storage; a string on the heap is empty iff it has no storage; a hash table is empty or has entries followed by control bytes that
agree with its counters. -/
def Ok (e : SEnv) : Ty → Nat → Prop
  | .int _, _ => True
  | .blob _ _, _ => True
  | .ptr _, _ => True
  | .vec sw _ t, a => rdN e.host e.mem (a + 8) sw = 0 ∨ ∃ el, ptrAt e.host e.raw e.mem a = some el ∧
      ∀ i, i < rdN e.host e.mem (a + 8) sw → Ok e t (el + i * t.sizeof)
  | .str, a => e.mem a = 1#8 ∨ (e.mem a = 0#8 ∧ (rdN e.host e.mem (a + 4) 4 = 0 ↔ ptrAt e.host e.raw e.mem (a + 8) = none))
  | .uptr t, a => ∀ el, ptrAt e.host e.raw e.mem a = some el → Ok e t el
  | .hash t, a =>
      (ptrAt e.host e.raw e.mem a = none ∧ rdN e.host e.mem (a + 24) 8 = 0 ∧ rdN e.host e.mem (a + 16) 8 = 0) ∨
      ∃ el, ptrAt e.host e.raw e.mem a = some el ∧
        ptrAt e.host e.raw e.mem (a + 8) = some (el + rdN e.host e.mem (a + 24) 8 * t.sizeof) ∧ 0 < rdN e.host e.mem (a + 24) 8 ∧
        HTable (ctl e.mem (el + rdN e.host e.mem (a + 24) 8 * t.sizeof) (rdN e.host e.mem (a + 24) 8 + 9)) (rdN e.host e.mem (a + 24) 8)
          (rdN e.host e.mem (a + 16) 8) (rdN e.host e.mem (a + 32) 8) ∧
        ∀ i, i < rdN e.host e.mem (a + 24) 8 → Full e.mem (el + rdN e.host e.mem (a + 24) 8 * t.sizeof) i → Ok e t (el + i * t.sizeof)
  | .opt t, a => e.mem a = 0#8 ∨ (e.mem a = 1#8 ∧ Ok e t (a + t.alignof))
  | .var ib so _ _ n t, a => ∃ i : Fin n, rdN e.host e.mem a ib = i.1 ∧ Ok e (t i) (a + so)
  | .arr n t, a => ∀ i, i < n → Ok e t (a + i * t.sizeof)
  | .idx t, a => Ok e t a
  | .agg _ _ n off t, a => ∀ i : Fin n, Ok e (t i) (a + off i)

/-! ## Context changes -/

/-- No pending pointer overlaps `[q, q+w)`. -/
def NoPend (c : Ctx) (q w : Nat) : Prop := ∀ pr ∈ c.pend, pr.2 + 8 ≤ q ∨ q + w ≤ pr.2

/-- Stored distance from a pointer at `q` to its target. -/
def offTo (q : Nat) : Option Nat → Int
  | none => NULLO
  | some s => (s : Int) - q

/-- Position `y` is registered for source address `v`. -/
def Known (c : Ctx) (v y : Nat) : Prop :=
  (v, y) ∈ c.offs ∨ ∃ r ∈ c.rngs, r.1 ≤ v ∧ v < r.1 + r.2.2 ∧ y = r.2.1 + (v - r.1)

/-- A part as written during the first pass. -/
def FS (e : SEnv) (c : Ctx) : Nat × Leaf → Prop
  | (q, .int bs) => rd c.buf q bs.length = cv e.conv bs ∧ NoPend c q bs.length
  | (q, .raw bs) => rd c.buf q bs.length = bs ∧ NoPend c q bs.length
  | (q, .own o) => rd c.buf q 8 = cv e.conv (encI e.host (offTo q o)) ∧ NoPend c q 8
  | (q, .ptr x pt) => ∃ tg, rd c.buf q 8 = cv e.conv (encI e.host (offTo q tg)) ∧
      (match pt, x with
        | .void, _ => tg = none
        | .obj _, none => tg = none
        | .obj _, some v => (∃ y, tg = some y ∧ Known c v y) ∨ (tg = none ∧ (v, q) ∈ c.pend)) ∧
      ∀ pr ∈ c.pend, (pr.2 + 8 ≤ q ∨ q + 8 ≤ pr.2) ∨ (pr.2 = q ∧ tg = none ∧ x = some pr.1 ∧ pt ≠ .void)

/-- From `c` to `c'` only `[p, p+sz)` and new space was written. -/
structure Ext (p sz : Nat) (c c' : Ctx) : Prop where
  len : c.len ≤ c'.len
  buf : ∀ x, x < c.len → x < p ∨ p + sz ≤ x → c'.buf x = c.buf x
  pend : ∃ nw, c'.pend = c.pend ++ nw ∧ ∀ pr ∈ nw, Within p sz c.len c'.len pr.2 8
  offs : ∀ o ∈ c.offs, o ∈ c'.offs
  rngs : ∀ r ∈ c.rngs, r ∈ c'.rngs

theorem Ext.trans {p sz p' sz' : Nat} {c c1 c2 : Ctx} (h1 : Ext p sz c c1) (h2 : Ext p' sz' c1 c2)
    (hs : (p ≤ p' ∧ p' + sz' ≤ p + sz) ∨ (c.len ≤ p' ∧ p' + sz' ≤ c2.len)) : Ext p sz c c2 := by
  refine ⟨Nat.le_trans h1.len h2.len, fun x hx hx' => ?_, ?_, fun o ho => h2.offs o (h1.offs o ho), fun o ho => h2.rngs o (h1.rngs o ho)⟩
  · have l1 := h1.len
    rw [h2.buf x (by omega) (by omega), h1.buf x hx hx']
  · obtain ⟨n1, e1, w1⟩ := h1.pend
    obtain ⟨n2, e2, w2⟩ := h2.pend
    have l1 := h1.len
    have l2 := h2.len
    refine ⟨n1 ++ n2, by rw [e2, e1, List.append_assoc], fun pr hpr => ?_⟩
    rcases List.mem_append.1 hpr with h | h
    · exact (w1 pr h).up (Or.inl ⟨Nat.le_refl _, Nat.le_refl _⟩) (Nat.le_refl _) l2
    · exact (w2 pr h).up (by omega) l1 (Nat.le_refl _)

theorem Ext.refl (p sz : Nat) (c : Ctx) : Ext p sz c c :=
  ⟨Nat.le_refl _, fun _ _ _ => rfl, ⟨[], by simp, fun _ h => by simp at h⟩, fun _ h => h, fun _ h => h⟩

theorem Known.mono {p sz : Nat} {c c' : Ctx} (h : Ext p sz c c') {v y : Nat} (hk : Known c v y) : Known c' v y := by
  rcases hk with hk | ⟨r, hr, hh⟩
  · exact Or.inl (h.offs _ hk)
  · exact Or.inr ⟨r, h.rngs _ hr, hh⟩

theorem NoPend.mono {p sz : Nat} {c c' : Ctx} (h : Ext p sz c c') {q w : Nat} (hq : q + w ≤ c.len) (hd : q + w ≤ p ∨ p + sz ≤ q)
    (hn : NoPend c q w) : NoPend c' q w := by
  obtain ⟨nw, e, hw⟩ := h.pend
  intro pr hpr
  rw [e] at hpr
  rcases List.mem_append.1 hpr with h1 | h1
  · exact hn pr h1
  · have := hw pr h1
    unfold Within at this
    omega

theorem FS.mono {e : SEnv} {p sz : Nat} {c c' : Ctx} (h : Ext p sz c c') {l : Nat × Leaf} (hq : l.1 + l.2.width ≤ c.len)
    (hd : l.1 + l.2.width ≤ p ∨ p + sz ≤ l.1) (hl : FS e c l) : FS e c' l := by
  obtain ⟨q, l⟩ := l
  have hrd : ∀ w, w = l.width → rd c'.buf q w = rd c.buf q w := fun w hw => rd_congr fun x h1 h2 => by
    subst hw
    exact h.buf x (by simp only at hq; omega) (by simp only at hd; omega)
  cases l with
  | int bs => exact ⟨(hrd _ rfl).trans hl.1, hl.2.mono h hq hd⟩
  | raw bs => exact ⟨(hrd _ rfl).trans hl.1, hl.2.mono h hq hd⟩
  | own o => exact ⟨(hrd _ rfl).trans hl.1, hl.2.mono h hq hd⟩
  | ptr x pt =>
    obtain ⟨tg, h1, h2, h3⟩ := hl
    obtain ⟨nw, en, hw⟩ := h.pend
    refine ⟨tg, (hrd _ rfl).trans h1, ?_, fun pr hpr => ?_⟩
    · cases pt with
      | void => exact h2
      | obj n =>
        cases x with
        | none => exact h2
        | some v =>
          rcases h2 with ⟨y, h4, h5⟩ | ⟨h4, h5⟩
          · exact Or.inl ⟨y, h4, h5.mono h⟩
          · exact Or.inr ⟨h4, by rw [en]; exact List.mem_append_left _ h5⟩
    · rw [en] at hpr
      rcases List.mem_append.1 hpr with g | g
      · exact h3 pr g
      · have := hw pr g
        unfold Within at this
        simp only [Leaf.width] at hq hd
        left
        omega

/-- What the registration tables gained is exactly the placements. -/
structure Regs (c c' : Ctx) (pl : List Place) : Prop where
  so : ∀ o ∈ c'.offs, o ∈ c.offs ∨ ∃ g ∈ pl, g.exact = true ∧ g.v = o.1 ∧ g.y = o.2
  sr : ∀ r ∈ c'.rngs, r ∈ c.rngs ∨ ∃ g ∈ pl, g.exact = false ∧ g.v = r.1 ∧ g.y = r.2.1 ∧ g.n = r.2.2
  co : ∀ g ∈ pl, g.exact = true → ∃ y, (g.v, y) ∈ c'.offs
  cr : ∀ g ∈ pl, g.exact = false → ∃ r ∈ c'.rngs, r.1 = g.v

theorem Regs.of_same {c c' : Ctx} (h1 : c'.offs = c.offs) (h2 : c'.rngs = c.rngs) : Regs c c' [] :=
  ⟨fun o h => Or.inl (by rw [← h1]; exact h), fun o h => Or.inl (by rw [← h2]; exact h), fun _ h => by simp at h, fun _ h => by simp at h⟩

theorem Regs.trans {p sz : Nat} {c c1 c2 : Ctx} {pl1 pl2 : List Place} (h1 : Regs c c1 pl1) (h2 : Regs c1 c2 pl2)
    (he : Ext p sz c1 c2) : Regs c c2 (pl1 ++ pl2) := by
  refine ⟨fun o ho => ?_, fun o ho => ?_, fun g hg hx => ?_, fun g hg hx => ?_⟩
  · rcases h2.so o ho with h | ⟨g, hg, hh⟩
    · rcases h1.so o h with h | ⟨g, hg, hh⟩
      · exact Or.inl h
      · exact Or.inr ⟨g, List.mem_append_left _ hg, hh⟩
    · exact Or.inr ⟨g, List.mem_append_right _ hg, hh⟩
  · rcases h2.sr o ho with h | ⟨g, hg, hh⟩
    · rcases h1.sr o h with h | ⟨g, hg, hh⟩
      · exact Or.inl h
      · exact Or.inr ⟨g, List.mem_append_left _ hg, hh⟩
    · exact Or.inr ⟨g, List.mem_append_right _ hg, hh⟩
  · rcases List.mem_append.1 hg with hg | hg
    · obtain ⟨y, hy⟩ := h1.co g hg hx
      exact ⟨y, he.offs _ hy⟩
    · exact h2.co g hg hx
  · rcases List.mem_append.1 hg with hg | hg
    · obtain ⟨y, hy, hy'⟩ := h1.cr g hg hx
      exact ⟨y, he.rngs _ hy, hy'⟩
    · exact h2.cr g hg hx

/-- Before an object at `[p, p+sz)` is serialized: pending pointers are elsewhere. -/
def Out (p sz : Nat) (c : Ctx) : Prop := ∀ pr ∈ c.pend, pr.2 + 8 ≤ c.len ∧ (pr.2 + 8 ≤ p ∨ p + sz ≤ pr.2)

theorem Out.noPend {p sz : Nat} {c : Ctx} (h : Out p sz c) {q w : Nat} (h1 : p ≤ q) (h2 : q + w ≤ p + sz) : NoPend c q w :=
  fun pr hpr => by have := h pr hpr; omega

/-- The effect of serializing an object. -/
def Done (e : SEnv) (r : Res Ctx) (R : Rel) (p sz : Nat) (c : Ctx) : Prop :=
  ∃ c' lv pl, r = .ok c' ∧ R c.len c'.len lv pl ∧ Ext p sz c c' ∧ (∀ l ∈ lv, FS e c' l ∧ Within p sz c.len c'.len l.1 l.2.width) ∧
    Regs c c' pl

theorem chain_done {e : SEnv} {f : Nat → Ctx → Res Ctx} {R : Nat → Rel} {p sz src : Nat → Nat} :
    ∀ (k i : Nat) (P T : Nat) (c : Ctx), P ≤ T → T ≤ c.len →
    (∀ j, i ≤ j → j < i + k → P ≤ p j ∧ p j + sz j ≤ T) →
    (∀ j j', i ≤ j → j < j' → j' < i + k → p j + sz j ≤ p j') →
    (∀ j, i ≤ j → j < i + k → rd c.buf (p j) (sz j) = rd e.mem (src j) (sz j) ∧ Out (p j) (sz j) c) →
    (∀ j, i ≤ j → j < i + k → ∀ c, p j + sz j ≤ c.len → rd c.buf (p j) (sz j) = rd e.mem (src j) (sz j) → Out (p j) (sz j) c →
      Done e (f j c) (R j) (p j) (sz j) c) →
    Done e (forFrom f i k c) (ChainFrom R i k) P (T - P) c
  | 0, i, P, T, c, _, _, _, _, _, _ =>
    ⟨c, [], [], rfl, ⟨rfl, rfl, rfl⟩, Ext.refl _ _ _, fun _ h => by simp at h, Regs.of_same rfl rfl⟩
  | k + 1, i, P, T, c, hPT, hT, hb, ho, hpre, hf => by
    have hbi := hb i (Nat.le_refl _) (by omega)
    have hpi := hpre i (Nat.le_refl _) (by omega)
    obtain ⟨c1, lv1, pl1, e1, r1, x1, l1, g1⟩ := hf i (Nat.le_refl _) (by omega) c (by omega) hpi.1 hpi.2
    have hlen := x1.len
    obtain ⟨c2, lv2, pl2, e2, r2, x2, l2, g2⟩ := chain_done k (i + 1) (p i + sz i) T c1 hbi.2 (by omega)
      (fun j hj hk => ⟨ho i j (Nat.le_refl _) (by omega) (by omega), (hb j (by omega) (by omega)).2⟩)
      (fun j j' h1 h2 h3 => ho j j' (by omega) h2 (by omega))
      (fun j hj hk => by
        have hpj := hpre j (by omega) (by omega)
        have hij := ho i j (Nat.le_refl _) (by omega) (by omega)
        have hbj := hb j (by omega) (by omega)
        refine ⟨?_, ?_⟩
        · rw [← hpj.1]
          exact rd_congr fun x hx hx' => x1.buf x (by omega) (by omega)
        · obtain ⟨nw, en, hw⟩ := x1.pend
          intro pr hpr
          rw [en] at hpr
          rcases List.mem_append.1 hpr with h | h
          · have := hpj.2 pr h
            omega
          · have := hw pr h
            unfold Within at this
            omega)
      (fun j hj hk => hf j (by omega) (by omega))
    have hlen2 := x2.len
    refine ⟨c2, lv1 ++ lv2, pl1 ++ pl2, ?_, ⟨c1.len, lv1, lv2, pl1, pl2, r1, r2, rfl, rfl⟩, ?_, fun l hl => ?_, g1.trans g2 x2⟩
    · rw [forFrom_succ, e1, ok_bind, e2]
    · have y1 : Ext P (T - P) c c1 := (Ext.refl P (T - P) c).trans x1 (by omega)
      exact y1.trans x2 (by omega)
    · rcases List.mem_append.1 hl with h | h
      · obtain ⟨s1, s2⟩ := l1 l h
        refine ⟨s1.mono x2 (by unfold Within at s2; omega) (by unfold Within at s2; omega), ?_⟩
        exact s2.up (by omega) (by omega) (by omega)
      · obtain ⟨s1, s2⟩ := l2 l h
        exact ⟨s1, s2.up (by omega) (by omega) (by omega)⟩

/-! ## Primitive steps -/

theorem patch_ok {c : Ctx} {pos : Nat} {bs : List Byte} (h : pos + bs.length ≤ c.len) :
    patch c pos bs = .ok { c with buf := wr c.buf pos bs } := by
  unfold patch
  rw [show decide (pos + bs.length ≤ c.len) = true from decide_eq_true h, verify_true, ok_bind]

/-- A context with a changed buffer. -/
def Ctx.setBuf (c : Ctx) (b : Mem) : Ctx := { c with buf := b }

theorem patch_ok' {c : Ctx} {pos : Nat} {bs : List Byte} (h : pos + bs.length ≤ c.len) :
    patch c pos bs = .ok (c.setBuf (wr c.buf pos bs)) := patch_ok h

theorem Ext.setBuf {c : Ctx} {b : Mem} {p sz : Nat} (h : ∀ x, x < p ∨ p + sz ≤ x → b x = c.buf x) : Ext p sz c (c.setBuf b) :=
  ⟨Nat.le_refl _, fun x _ hx => h x hx, ⟨[], by simp [Ctx.setBuf], fun _ h => by simp at h⟩, fun _ h => h, fun _ h => h⟩

theorem put_ext (c : Ctx) (bs : List Byte) (al p : Nat) : Ext p 0 c (put c bs al).1 := by
  have hp := put_pos_le c bs al
  refine ⟨?_, fun x hx _ => ?_, ⟨[], by simp [put], fun _ h => by simp at h⟩, fun _ h => h, fun _ h => h⟩
  · unfold put at hp ⊢
    simp only at hp ⊢
    omega
  · unfold put at hp ⊢
    simp only at hp ⊢
    exact wr_out (by omega)

theorem put_len (c : Ctx) (bs : List Byte) (al : Nat) : (put c bs al).1.len = (put c bs al).2 + bs.length := rfl
theorem put_pend (c : Ctx) (bs : List Byte) (al : Nat) : (put c bs al).1.pend = c.pend := rfl
theorem put_buf (c : Ctx) (bs : List Byte) (al : Nat) : (put c bs al).1.buf = wr c.buf (put c bs al).2 bs := rfl
theorem put_regs (c : Ctx) (bs : List Byte) (al : Nat) : Regs c (put c bs al).1 [] := Regs.of_same rfl rfl

theorem findOff_mem {x y : Nat} : ∀ {l : List (Nat × Nat)}, findOff x l = some y → (x, y) ∈ l
  | [], h => by cases h
  | q :: qs, h => by
    unfold findOff at h
    split at h
    · rename_i h1
      injection h with h
      obtain ⟨q1, q2⟩ := q
      simp only at h1 h
      subst h1; subst h
      exact List.mem_cons_self
    · exact List.mem_cons_of_mem _ (findOff_mem h)

theorem findOff_none {x : Nat} : ∀ {l : List (Nat × Nat)}, findOff x l = none → ∀ y, (x, y) ∉ l
  | [], _, _ => by simp
  | q :: qs, h, y => by
    unfold findOff at h
    split at h
    · cases h
    · rename_i h1
      intro hm
      rcases List.mem_cons.1 hm with h2 | h2
      · subst h2; exact h1 rfl
      · exact findOff_none h y h2

theorem predRange_mem {x : Nat} : ∀ {l : List (Nat × Nat × Nat)} {r}, predRange x l = some r → r ∈ l ∧ r.1 ≤ x
  | [], _, h => by cases h
  | q :: qs, r, h => by
    unfold predRange at h
    cases hp : predRange x qs with
    | none =>
      rw [hp] at h
      simp only at h
      split at h
      · injection h with h; subst h
        exact ⟨List.mem_cons_self, by assumption⟩
      · cases h
    | some r' =>
      rw [hp] at h
      simp only at h
      obtain ⟨i1, i2⟩ := predRange_mem hp
      split at h
      · rename_i h1
        injection h with h; subst h
        exact ⟨List.mem_cons_self, h1.1⟩
      · injection h with h; subst h
        exact ⟨List.mem_cons_of_mem _ i1, i2⟩

theorem resolved_known {c : Ctx} {x y : Nat} (h : resolved c x = some y) : Known c x y := by
  unfold resolved at h
  cases ho : findOff x c.offs with
  | some z =>
    rw [ho] at h
    injection h with h; subst h
    exact Or.inl (findOff_mem ho)
  | none =>
    rw [ho] at h
    simp only at h
    unfold resolveRange at h
    cases hp : predRange x c.rngs with
    | none => rw [hp] at h; cases h
    | some r =>
      obtain ⟨b, s, n⟩ := r
      rw [hp] at h
      simp only at h
      obtain ⟨h1, h2⟩ := predRange_mem hp
      split at h
      · injection h with h
        exact Or.inr ⟨(b, s, n), h1, h2, by assumption, h.symm⟩
      · cases h

theorem regNew_ext (c : Ctx) (x pos p : Nat) : Ext p 0 c (regNew c x pos) ∧ (regNew c x pos).len = c.len ∧
    (regNew c x pos).buf = c.buf ∧ (regNew c x pos).pend = c.pend := by
  unfold regNew
  split
  · exact ⟨Ext.refl _ _ _, rfl, rfl, rfl⟩
  · exact ⟨⟨Nat.le_refl _, fun _ _ _ => rfl, ⟨[], by simp, fun _ h => by simp at h⟩, fun _ h => List.mem_cons_of_mem _ h, fun _ h => h⟩, rfl, rfl, rfl⟩

theorem regNew_regs (c : Ctx) (x pos n al : Nat) : Regs c (regNew c x pos) [⟨true, x, pos, n, al⟩] := by
  unfold regNew
  split
  · rename_i y hy
    refine ⟨fun _ h => Or.inl h, fun _ h => Or.inl h, fun g hg _ => ?_, fun g hg hx => ?_⟩
    · simp only [List.mem_singleton] at hg
      subst hg
      exact ⟨y, findOff_mem hy⟩
    · simp only [List.mem_singleton] at hg
      subst hg
      cases hx
  · refine ⟨fun o ho => ?_, fun _ h => Or.inl h, fun g hg _ => ?_, fun g hg hx => ?_⟩
    · rcases List.mem_cons.1 ho with h | h
      · subst h
        exact Or.inr ⟨_, List.mem_singleton.2 rfl, rfl, rfl, rfl⟩
      · exact Or.inl h
    · simp only [List.mem_singleton] at hg
      subst hg
      exact ⟨pos, List.mem_cons_self⟩
    · simp only [List.mem_singleton] at hg
      subst hg
      cases hx

theorem regSet_ext (c : Ctx) (x pos p : Nat) : Ext p 0 c (regSet c x pos) :=
  ⟨Nat.le_refl _, fun _ _ _ => rfl, ⟨[], by simp [regSet], fun _ h => by simp at h⟩, fun _ h => List.mem_cons_of_mem _ h, fun _ h => h⟩

theorem regSet_regs (c : Ctx) (x pos n al : Nat) : Regs c (regSet c x pos) [⟨true, x, pos, n, al⟩] := by
  refine ⟨fun o ho => ?_, fun _ h => Or.inl h, fun g hg _ => ?_, fun g hg hx => ?_⟩
  · rcases List.mem_cons.1 ho with h | h
    · subst h
      exact Or.inr ⟨_, List.mem_singleton.2 rfl, rfl, rfl, rfl⟩
    · exact Or.inl h
  · simp only [List.mem_singleton] at hg
    subst hg
    exact ⟨pos, List.mem_cons_self⟩
  · simp only [List.mem_singleton] at hg
    subst hg
    cases hx

theorem regRange_ext (c : Ctx) (x s n p : Nat) : Ext p 0 c (regRange c x s n) ∧ (regRange c x s n).len = c.len ∧
    (regRange c x s n).buf = c.buf ∧ (regRange c x s n).pend = c.pend := by
  unfold regRange
  split
  · exact ⟨Ext.refl _ _ _, rfl, rfl, rfl⟩
  · exact ⟨⟨Nat.le_refl _, fun _ _ _ => rfl, ⟨[], by simp, fun _ h => by simp at h⟩, fun _ h => h, fun _ h => List.mem_cons_of_mem _ h⟩, rfl, rfl, rfl⟩

theorem regRange_regs (c : Ctx) (x s n al : Nat) : Regs c (regRange c x s n) [⟨false, x, s, n, al⟩] := by
  unfold regRange
  split
  · rename_i h1
    refine ⟨fun _ h => Or.inl h, fun _ h => Or.inl h, fun g hg hx => ?_, fun g hg hx => ?_⟩
    · simp only [List.mem_singleton] at hg
      subst hg
      cases hx
    · simp only [List.mem_singleton] at hg
      subst hg
      rw [List.contains_iff_mem, List.mem_map] at h1
      exact h1
  · refine ⟨fun _ h => Or.inl h, fun o ho => ?_, fun g hg hx => ?_, fun g hg hx => ?_⟩
    · rcases List.mem_cons.1 ho with h | h
      · subst h
        exact Or.inr ⟨_, List.mem_singleton.2 rfl, rfl, rfl, rfl, rfl⟩
      · exact Or.inl h
    · simp only [List.mem_singleton] at hg
      subst hg
      cases hx
    · simp only [List.mem_singleton] at hg
      subst hg
      exact ⟨(x, s, n), List.mem_cons_self, rfl⟩

/-! ## Header blocks -/

theorem patchOff_ok {e : SEnv} {c : Ctx} {pos : Nat} {o : Int} (h : pos + 8 ≤ c.len) :
    patchOff e c pos o = .ok (c.setBuf (wr c.buf pos (cv e.conv (encI e.host o)))) := by
  unfold patchOff
  exact patch_ok' (by simpa using h)

theorem vecHeader_done {e : SEnv} {sw a p : Nat} {s : Option Nat} {c : Ctx} (hsw : sw = 4 ∨ sw = 8) (hp : p + (16 + 2 * sw) ≤ c.len)
    (ho : Out p (16 + 2 * sw) c) : ∃ b, vecHeader e sw a p s c = .ok (c.setBuf b) ∧ Ext p (16 + 2 * sw) c (c.setBuf b) ∧
      ∀ l ∈ vecLeaves e sw a p s, FS e (c.setBuf b) l := by
  refine ⟨wr (wr (wr (wr c.buf p (cv e.conv (encI e.host (offTo p s)))) (p + 8 + sw) (cv e.conv (rd e.mem (a + 8) sw)))
    (p + 8) (cv e.conv (rd e.mem (a + 8) sw))) (p + 8 + 2 * sw) [0#8], ?_, ?_, ?_⟩
  · unfold vecHeader
    have e0 : ∀ o, o = offTo p s → patchOff e c p o = .ok (c.setBuf (wr c.buf p (cv e.conv (encI e.host (offTo p s))))) :=
      fun o ho => by rw [ho, patchOff_ok (by omega)]
    rw [e0 _ (by cases s <;> rfl), ok_bind, patch_ok' (by simp [Ctx.setBuf]; omega), ok_bind,
      patch_ok' (by simp [Ctx.setBuf]; omega), ok_bind, patch_ok' (by simp [Ctx.setBuf]; omega)]
    rfl
  · refine Ext.setBuf fun x hx => ?_
    rw [wr_out (by simp; omega), wr_out (by simp; omega), wr_out (by simp; omega), wr_out (by simp; omega)]
  · have np : ∀ q w b, p ≤ q → q + w ≤ p + (16 + 2 * sw) → NoPend (c.setBuf b) q w := fun q w b h1 h2 => ho.noPend h1 h2
    intro l hl
    simp only [vecLeaves, List.mem_cons, List.not_mem_nil, or_false] at hl
    rcases hl with rfl | rfl | rfl | rfl
    · refine ⟨?_, np _ _ _ (by omega) (by omega)⟩
      show rd (wr _ _ _) p 8 = _
      rw [rd_wr_disj (by left; omega), rd_wr_disj (by left; omega), rd_wr_disj (by left; omega), rd_wr_same' _ _ _ _ (by simp)]
    · refine ⟨?_, np _ _ _ (by omega) (by simp; omega)⟩
      rw [length_rd]
      show rd (wr _ _ _) (p + 8 + sw) sw = _
      rw [rd_wr_disj (by left; omega), rd_wr_disj (by right; simp), rd_wr_same' _ _ _ _ (by simp)]
    · refine ⟨?_, np _ _ _ (by omega) (by simp; omega)⟩
      rw [length_rd]
      show rd (wr _ _ _) (p + 8) sw = _
      rw [rd_wr_disj (by left; omega), rd_wr_same' _ _ _ _ (by simp)]
    · refine ⟨?_, np _ _ _ (by omega) (by simp; omega)⟩
      show rd (wr _ _ _) (p + 8 + 2 * sw) 1 = _
      rw [rd_wr_same' _ _ _ _ (by simp)]

/-- The three members written for a long string. -/
theorem strHeader_done {e : SEnv} {a p : Nat} {s : Option Nat} {c : Ctx} (hp : p + 16 ≤ c.len) (ho : Out p 16 c)
    (h0 : c.buf p = 0#8) : ∃ b,
      (do let c ← patchOff e c (p + 8) (offTo (p + 8) s)
          let c ← patch c (p + 4) (cv e.conv (rd e.mem (a + 4) 4))
          patch c (p + 1) [0#8]) = .ok (c.setBuf b) ∧ Ext p 16 c (c.setBuf b) ∧
      ∀ l ∈ strLeaves e a p s, FS e (c.setBuf b) l := by
  refine ⟨wr (wr (wr c.buf (p + 8) (cv e.conv (encI e.host (offTo (p + 8) s)))) (p + 4) (cv e.conv (rd e.mem (a + 4) 4)))
    (p + 1) [0#8], ?_, ?_, ?_⟩
  · rw [patchOff_ok (by omega), ok_bind, patch_ok' (by simp [Ctx.setBuf]; omega), ok_bind, patch_ok' (by simp [Ctx.setBuf]; omega)]
    rfl
  · refine Ext.setBuf fun x hx => ?_
    rw [wr_out (by simp; omega), wr_out (by simp; omega), wr_out (by simp; omega)]
  · have np : ∀ q w b, p ≤ q → q + w ≤ p + 16 → NoPend (c.setBuf b) q w := fun q w b h1 h2 => ho.noPend h1 h2
    intro l hl
    simp only [strLeaves, List.mem_cons, List.not_mem_nil, or_false] at hl
    rcases hl with rfl | rfl | rfl | rfl
    · refine ⟨?_, np _ _ _ (by simp) (by simp)⟩
      show rd (wr _ _ _) p 1 = _
      rw [rd_wr_disj (by simp), rd_wr_disj (by simp), rd_wr_disj (by simp), rd_one, h0]
    · refine ⟨?_, np _ _ _ (by simp) (by simp)⟩
      show rd (wr _ _ _) (p + 8) 8 = _
      rw [rd_wr_disj (by simp), rd_wr_disj (by simp), rd_wr_same' _ _ _ _ (by simp)]
    · refine ⟨?_, np _ _ _ (by simp) (by simp)⟩
      rw [length_rd]
      show rd (wr _ _ _) (p + 4) 4 = _
      rw [rd_wr_disj (by simp), rd_wr_same' _ _ _ _ (by simp)]
    · refine ⟨?_, np _ _ _ (by simp) (by simp)⟩
      show rd (wr _ _ _) (p + 1) 1 = _
      rw [rd_wr_same' _ _ _ _ (by simp)]

theorem uptrHeader_done {e : SEnv} {p : Nat} {s : Option Nat} {c : Ctx} (hp : p + 16 ≤ c.len) (ho : Out p 16 c) : ∃ b,
      patchOff e c p (offTo p s) = .ok (c.setBuf b) ∧ ∃ b', patch (c.setBuf b) (p + 8) [0#8] = .ok (c.setBuf b') ∧
      Ext p 16 c (c.setBuf b') ∧ ∀ l ∈ [(p, Leaf.own s), (p + 8, Leaf.raw [0#8])], FS e (c.setBuf b') l := by
  refine ⟨_, patchOff_ok (by omega), _, patch_ok' (by simp [Ctx.setBuf]; omega), ?_, ?_⟩
  · refine Ext.setBuf fun x hx => ?_
    rw [wr_out (by simp; omega)]
    show wr _ _ _ x = _
    rw [wr_out (by simp; omega)]
  · have np : ∀ q w b, p ≤ q → q + w ≤ p + 16 → NoPend (c.setBuf b) q w := fun q w b h1 h2 => ho.noPend h1 h2
    intro l hl
    simp only [List.mem_cons, List.not_mem_nil, or_false] at hl
    rcases hl with rfl | rfl
    · refine ⟨?_, np _ _ _ (by simp) (by simp)⟩
      show rd (wr _ _ _) p 8 = _
      rw [rd_wr_disj (by simp)]
      show rd (wr _ _ _) p 8 = _
      rw [rd_wr_same' _ _ _ _ (by simp)]
    · refine ⟨?_, np _ _ _ (by simp) (by simp)⟩
      show rd (wr _ _ _) (p + 8) 1 = _
      rw [rd_wr_same' _ _ _ _ (by simp)]

theorem hashHeader_done {e : SEnv} {a p ctrl : Nat} {s : Option Nat} {c : Ctx} (hp : p + 48 ≤ c.len) (ho : Out p 48 c) : ∃ b,
      hashHeader e a p s ctrl c = .ok (c.setBuf b) ∧ Ext p 48 c (c.setBuf b) ∧ ∀ l ∈ hashLeaves e a p s ctrl, FS e (c.setBuf b) l := by
  refine ⟨wr (wr (wr (wr (wr (wr c.buf p (cv e.conv (encI e.host (offTo p s)))) (p + 8) (cv e.conv (encI e.host (offTo (p + 8) (some ctrl)))))
    (p + 40) [0#8]) (p + 16) (cv e.conv (rd e.mem (a + 16) 8))) (p + 24) (cv e.conv (rd e.mem (a + 24) 8)))
    (p + 32) (cv e.conv (rd e.mem (a + 32) 8)), ?_, ?_, ?_⟩
  · unfold hashHeader
    have e0 : ∀ o, o = offTo p s → patchOff e c p o = .ok (c.setBuf (wr c.buf p (cv e.conv (encI e.host (offTo p s))))) :=
      fun o ho => by rw [ho, patchOff_ok (by omega)]
    have e1 : (ctrl : Int) - 8 - p = offTo (p + 8) (some ctrl) := by
      show _ = (ctrl : Int) - ((p + 8 : Nat) : Int)
      push_cast
      omega
    rw [e0 _ (by cases s <;> rfl), ok_bind, e1, patchOff_ok (by simp [Ctx.setBuf]; omega), ok_bind,
      patch_ok' (by simp [Ctx.setBuf]; omega), ok_bind,
      patch_ok' (by simp [Ctx.setBuf]; omega), ok_bind, patch_ok' (by simp [Ctx.setBuf]; omega), ok_bind,
      patch_ok' (by simp [Ctx.setBuf]; omega)]
    rfl
  · refine Ext.setBuf fun x hx => ?_
    rw [wr_out (by simp; omega), wr_out (by simp; omega), wr_out (by simp; omega), wr_out (by simp; omega), wr_out (by simp; omega),
      wr_out (by simp; omega)]
  · have np : ∀ q w b, p ≤ q → q + w ≤ p + 48 → NoPend (c.setBuf b) q w := fun q w b h1 h2 => ho.noPend h1 h2
    intro l hl
    simp only [hashLeaves, List.mem_cons, List.not_mem_nil, or_false] at hl
    rcases hl with rfl | rfl | rfl | rfl | rfl | rfl
    · refine ⟨?_, np _ _ _ (by simp) (by simp)⟩
      show rd (wr _ _ _) p 8 = _
      rw [rd_wr_disj (by simp), rd_wr_disj (by simp), rd_wr_disj (by simp), rd_wr_disj (by simp), rd_wr_disj (by simp),
        rd_wr_same' _ _ _ _ (by simp)]
    · refine ⟨?_, np _ _ _ (by simp) (by simp)⟩
      show rd (wr _ _ _) (p + 8) 8 = _
      rw [rd_wr_disj (by simp), rd_wr_disj (by simp), rd_wr_disj (by simp), rd_wr_disj (by simp), rd_wr_same' _ _ _ _ (by simp)]
    · refine ⟨?_, np _ _ _ (by simp) (by simp)⟩
      show rd (wr _ _ _) (p + 40) 1 = _
      rw [rd_wr_disj (by simp), rd_wr_disj (by simp), rd_wr_disj (by simp), rd_wr_same' _ _ _ _ (by simp)]
    · refine ⟨?_, np _ _ _ (by simp) (by simp)⟩
      rw [length_rd]
      show rd (wr _ _ _) (p + 16) 8 = _
      rw [rd_wr_disj (by simp), rd_wr_disj (by simp), rd_wr_same' _ _ _ _ (by simp)]
    · refine ⟨?_, np _ _ _ (by simp) (by simp)⟩
      rw [length_rd]
      show rd (wr _ _ _) (p + 24) 8 = _
      rw [rd_wr_disj (by simp), rd_wr_same' _ _ _ _ (by simp)]
    · refine ⟨?_, np _ _ _ (by simp) (by simp)⟩
      rw [length_rd]
      show rd (wr _ _ _) (p + 32) 8 = _
      rw [rd_wr_same' _ _ _ _ (by simp)]

/-- serialization.h:84-109 on a pointer member. -/
theorem resolvePtr_done {e : SEnv} {c : Ctx} {pt : Pointee} {x : Option Nat} {p : Nat} (hp : p + 8 ≤ c.len) (ho : Out p 8 c) :
    ∃ c', resolvePtr e c pt x p = .ok c' ∧ c'.len = c.len ∧ Ext p 8 c c' ∧ FS e c' (p, .ptr x pt) ∧ Regs c c' [] := by
  have hx : ∀ o, Ext p 8 c (c.setBuf (wr c.buf p (cv e.conv (encI e.host o)))) := fun o =>
    Ext.setBuf fun x hx => wr_out (by simp; omega)
  have hr : ∀ o, rd (c.setBuf (wr c.buf p (cv e.conv (encI e.host o)))).buf p 8 = cv e.conv (encI e.host o) := fun o =>
    rd_wr_same' _ _ _ _ (by simp)
  have hn : ∀ pr ∈ c.pend, pr.2 + 8 ≤ p ∨ p + 8 ≤ pr.2 := fun pr hpr => (ho pr hpr).2
  have null : ∀ tgp : (match pt, x with
        | .void, _ => (none : Option Nat) = none
        | .obj _, none => (none : Option Nat) = none
        | .obj _, some v => (∃ y, (none : Option Nat) = some y ∧ Known c v y) ∨ ((none : Option Nat) = none ∧ (v, p) ∈ c.pend)),
      ∃ c', patchOff e c p NULLO = .ok c' ∧ c'.len = c.len ∧ Ext p 8 c c' ∧ FS e c' (p, .ptr x pt) ∧ Regs c c' [] := fun tgp =>
    ⟨_, patchOff_ok hp, rfl, hx _, ⟨none, hr _, tgp, fun pr hpr => Or.inl (hn pr hpr)⟩, Regs.of_same rfl rfl⟩
  cases pt with
  | void => exact null rfl
  | obj n =>
    cases x with
    | none => exact null rfl
    | some v =>
      have hu : resolvePtr e c (.obj n) (some v) p = (match resolved c v with
          | some y => patchOff e c p ((y : Int) - p)
          | none => patchOff e c p NULLO >>= fun c => .ok { c with pend := c.pend ++ [(v, p)] }) := rfl
      rw [hu]
      cases hres : resolved c v with
      | some y =>
        exact ⟨_, patchOff_ok hp, rfl, hx _, ⟨some y, hr _, Or.inl ⟨y, rfl, resolved_known hres⟩, fun pr hpr => Or.inl (hn pr hpr)⟩,
          Regs.of_same rfl rfl⟩
      | none =>
        refine ⟨{ c.setBuf (wr c.buf p (cv e.conv (encI e.host NULLO))) with pend := c.pend ++ [(v, p)] }, ?_, rfl, ?_, ?_, Regs.of_same rfl rfl⟩
        · simp only
          rw [patchOff_ok hp, ok_bind]
          rfl
        · have h1 := hx NULLO
          refine ⟨h1.len, h1.buf, ⟨[(v, p)], rfl, fun pr hpr => ?_⟩, h1.offs, h1.rngs⟩
          simp only [List.mem_singleton] at hpr
          subst hpr
          left
          simp
        · refine ⟨none, hr _, Or.inr ⟨rfl, List.mem_append_right _ (List.mem_singleton.2 rfl)⟩, fun pr hpr => ?_⟩
          rcases List.mem_append.1 hpr with h | h
          · exact Or.inl (hn pr h)
          · simp only [List.mem_singleton] at h
            subst h
            exact Or.inr ⟨rfl, rfl, rfl, by simp⟩

end Cista.Ser

import Verif.Ser.Write

/-!
# The serializer on valid values
-/
set_option linter.unusedSimpArgs false
set_option linter.unusedSectionVars false

namespace Cista.Ser

/-- Header work followed by an inner object. -/
theorem Done.after {e : SEnv} {r : Res Ctx} {R R' : Rel} {p sz p' sz' : Nat} {c c1 : Ctx} {lv1 : List (Nat × Leaf)} {pl1 : List Place}
    (x1 : Ext p sz c c1) (hl1 : ∀ l ∈ lv1, FS e c1 l ∧ Within p sz c.len c1.len l.1 l.2.width ∧ (l.1 + l.2.width ≤ p' ∨ p' + sz' ≤ l.1))
    (hp : p + sz ≤ c.len) (g1 : Regs c c1 pl1) (hd : Done e r R p' sz' c1)
    (hs : (p ≤ p' ∧ p' + sz' ≤ p + sz) ∨ (c.len ≤ p' ∧ p' + sz' ≤ c1.len))
    (hR : ∀ L' lv pl, R c1.len L' lv pl → R' c.len L' (lv1 ++ lv) (pl1 ++ pl)) : Done e r R' p sz c := by
  obtain ⟨c2, lv2, pl2, e2, r2, x2, l2, g2⟩ := hd
  have n1 := x1.len
  have n2 := x2.len
  refine ⟨c2, lv1 ++ lv2, pl1 ++ pl2, e2, hR _ _ _ r2, x1.trans x2 (by omega), fun l hl => ?_, g1.trans g2 x2⟩
  rcases List.mem_append.1 hl with h | h
  · obtain ⟨f, w, d⟩ := hl1 l h
    have w' := w
    unfold Within at w'
    exact ⟨f.mono x2 (by omega) d, w.up (by omega) (by omega) (by omega)⟩
  · obtain ⟨f, w⟩ := l2 l h
    exact ⟨f, w.up (by omega) (by omega) (by omega)⟩

theorem vecLeaves_within {e : SEnv} {sw a p L L' : Nat} {s : Option Nat} {l : Nat × Leaf} (hl : l ∈ vecLeaves e sw a p s) (hsw : 0 < sw) :
    p ≤ l.1 ∧ l.1 + l.2.width ≤ p + (16 + 2 * sw) ∧ Within p (16 + 2 * sw) L L' l.1 l.2.width := by
  have : p ≤ l.1 ∧ l.1 + l.2.width ≤ p + (16 + 2 * sw) := by
    simp only [vecLeaves, List.mem_cons, List.not_mem_nil, or_false] at hl
    rcases hl with rfl | rfl | rfl | rfl <;> simp [Leaf.width] <;> omega
  exact ⟨this.1, this.2, Or.inl this⟩

theorem strLeaves_within {e : SEnv} {a p L L' : Nat} {s : Option Nat} {l : Nat × Leaf} (hl : l ∈ strLeaves e a p s) :
    p ≤ l.1 ∧ l.1 + l.2.width ≤ p + 16 ∧ Within p 16 L L' l.1 l.2.width := by
  have : p ≤ l.1 ∧ l.1 + l.2.width ≤ p + 16 := by
    simp only [strLeaves, List.mem_cons, List.not_mem_nil, or_false] at hl
    rcases hl with rfl | rfl | rfl | rfl <;> simp [Leaf.width]
  exact ⟨this.1, this.2, Or.inl this⟩

theorem hashLeaves_within {e : SEnv} {a p L L' ctrl : Nat} {s : Option Nat} {l : Nat × Leaf} (hl : l ∈ hashLeaves e a p s ctrl) :
    p ≤ l.1 ∧ l.1 + l.2.width ≤ p + 48 ∧ Within p 48 L L' l.1 l.2.width := by
  have : p ≤ l.1 ∧ l.1 + l.2.width ≤ p + 48 := by
    simp only [hashLeaves, List.mem_cons, List.not_mem_nil, or_false] at hl
    rcases hl with rfl | rfl | rfl | rfl | rfl | rfl <;> simp [Leaf.width]
  exact ⟨this.1, this.2, Or.inl this⟩

/-- Precondition of `serialize` for an object at position `p`: its bytes were copied there. -/
def Pre (e : SEnv) (a p sz : Nat) (c : Ctx) : Prop := p + sz ≤ c.len ∧ rd c.buf p sz = rd e.mem a sz ∧ Out p sz c

theorem Pre.sub {e : SEnv} {a p sz k sz' : Nat} {c : Ctx} (h : Pre e a p sz c) (hk : k + sz' ≤ sz) : Pre e (a + k) (p + k) sz' c := by
  obtain ⟨h1, h2, h3⟩ := h
  exact ⟨by omega, rd_sub h2 hk, fun pr hpr => by have := h3 pr hpr; omega⟩

/-- Appending the bytes of an object makes it ready. -/
theorem put_pre {e : SEnv} {p sz : Nat} (x n al : Nat) {c : Ctx} (ho : Out p sz c) :
    Pre e x (put c (rd e.mem x n) al).2 n (put c (rd e.mem x n) al).1 := by
  have hl := put_pos_le c (rd e.mem x n) al
  refine ⟨by rw [put_len]; simp, by rw [put_buf]; exact rd_wr_same' _ _ _ _ (by simp), fun pr hpr => ?_⟩
  rw [put_pend] at hpr
  have := ho pr hpr
  rw [put_len]
  omega

theorem Pre.mono {e : SEnv} {a p sz p' sz' : Nat} {c c' : Ctx} (h : Pre e a p sz c) (x : Ext p' sz' c c') (hp : c'.pend = c.pend)
    (hd : p' + sz' ≤ p ∨ p + sz ≤ p') : Pre e a p sz c' := by
  have := x.len
  refine ⟨by have := h.1; omega, ?_, fun pr hpr => ?_⟩
  · rw [← h.2.1]
    exact rd_congr fun y h1 h2 => x.buf y (by have := h.1; omega) (by omega)
  · rw [hp] at hpr
    have := h.2.2 pr hpr
    omega

/-- `serialize` of a valid value succeeds, appends everything it owns and leaves the rest of the buffer alone. -/
theorem ser_done {e : SEnv} : ∀ t : Ty, t.WF → ∀ a, Ok e t a → ∀ p c, t.alignof ∣ p → Pre e a p t.sizeof c →
    Done e (ser e t a p c) (Lay e t a p) p t.sizeof c := by
  intro t
  induction t with
  | int w =>
    intro hw a _ p c hal hpre
    refine ⟨_, _, _, patch_ok' (by simpa [Ty.sizeof] using hpre.1), ⟨rfl, rfl, rfl⟩, Ext.setBuf fun x hx => wr_out (by simpa [Ty.sizeof] using hx),
      fun l hl => ?_, Regs.of_same rfl rfl⟩
    simp only [List.mem_singleton] at hl
    subst hl
    refine ⟨⟨?_, ?_⟩, Or.inl (by simp [Leaf.width, Ty.sizeof])⟩
    · rw [length_rd]; exact rd_wr_same' _ _ _ _ (by simp)
    · rw [length_rd]; exact hpre.2.2.noPend (Nat.le_refl _) (Nat.le_refl _)
  | blob s al =>
    intro hw a _ p c hal hpre
    refine ⟨c, _, _, rfl, ⟨rfl, rfl, rfl⟩, Ext.refl _ _ _, fun l hl => ?_, Regs.of_same rfl rfl⟩
    simp only [List.mem_singleton] at hl
    subst hl
    refine ⟨⟨?_, ?_⟩, Or.inl (by simp [Leaf.width, Ty.sizeof])⟩
    · rw [length_rd]; exact hpre.2.1
    · rw [length_rd]; exact hpre.2.2.noPend (Nat.le_refl _) (Nat.le_refl _)
  | ptr pt =>
    intro hw a _ p c hal hpre
    obtain ⟨c', e', hl, x', f', g'⟩ := resolvePtr_done (e := e) (pt := pt) (x := ptrAt e.host e.raw e.mem a) hpre.1 hpre.2.2
    refine ⟨c', _, _, e', ⟨hl, rfl, rfl⟩, x', fun l hl => ?_, g'⟩
    simp only [List.mem_singleton] at hl
    subst hl
    exact ⟨f', Or.inl (by simp [Leaf.width, Ty.sizeof])⟩
  | vec sw ix t ih =>
    intro hw a hok p c hal hpre
    have htp := Ty.pos_of_WF (t := t) hw.2
    have hsw : 0 < sw := by rcases hw.1 with h | h <;> omega
    have empty : rdN e.host e.mem (a + 8) sw = 0 → Done e (vecHeader e sw a p none c) (Lay e (.vec sw ix t) a p) p (16 + 2 * sw) c := by
      intro h0
      obtain ⟨b, eb, xb, fb⟩ := vecHeader_done (a := a) (s := none) hw.1 hpre.1 hpre.2.2
      exact ⟨_, vecLeaves e sw a p none, [], eb, Or.inl ⟨h0, rfl, rfl, rfl⟩, xb, fun l hl => ⟨fb l hl, (vecLeaves_within hl hsw).2.2⟩,
        Regs.of_same rfl rfl⟩
    unfold ser
    generalize hn : rdN e.host e.mem (a + 8) sw = n
    cases n with
    | zero =>
      cases ptrAt e.host e.raw e.mem a with
      | none => exact empty hn
      | some x => exact empty hn
    | succ n =>
      rcases hok with h0 | ⟨el, hel, hok⟩
      · omega
      · rw [hel]
        simp only
        have hpr := put_pre (e := e) el ((n + 1) * t.sizeof) t.alignof hpre.2.2
        have hpd := put_pos_dvd c (rd e.mem el ((n + 1) * t.sizeof)) htp.1
        have hpl := put_pos_le c (rd e.mem el ((n + 1) * t.sizeof)) t.alignof
        have x0 := put_ext c (rd e.mem el ((n + 1) * t.sizeof)) t.alignof p
        have g0 := put_regs c (rd e.mem el ((n + 1) * t.sizeof)) t.alignof
        have hnp := put_pend c (rd e.mem el ((n + 1) * t.sizeof)) t.alignof
        have hlen := put_len c (rd e.mem el ((n + 1) * t.sizeof)) t.alignof
        rw [length_rd] at hlen
        generalize hP : put c (rd e.mem el ((n + 1) * t.sizeof)) t.alignof = P at *
        have hz := hpre.1
        simp only [Ty.sizeof] at hz
        have ho : Out p (16 + 2 * sw) P.1 := fun pr hpr => by
          rw [hnp] at hpr
          have h1 := hpre.2.2 pr hpr
          have h2 := x0.len
          simp only [Ty.sizeof] at h1
          omega
        obtain ⟨b, eb, xb, fb⟩ := vecHeader_done (e := e) (a := a) (s := some P.2) hw.1 (c := P.1) (by have := x0.len; omega) ho
        rw [eb, ok_bind]
        have pre1 := hpr.mono xb rfl (by omega)
        have key : ∀ (c1 : Ctx) (pl1 : List Place), c1.len = P.1.len → c1.buf = b → c1.pend = P.1.pend →
            Ext p (16 + 2 * sw) (P.1.setBuf b) c1 → (∀ l ∈ vecLeaves e sw a p (some P.2), FS e c1 l) →
            Regs (P.1.setBuf b) c1 pl1 → pl1 = (if ix then [⟨false, el, P.2, (n + 1) * t.sizeof, t.alignof⟩] else []) →
            Done e (forFrom (fun i c => ser e t (el + i * t.sizeof) (P.2 + i * t.sizeof) c) 0 (n + 1) c1) (Lay e (.vec sw ix t) a p) p
              (16 + 2 * sw) c := by
          intro c1 pl1 k1 k2 k3 k4 k5 k6 k7
          have pre2 : Pre e el P.2 ((n + 1) * t.sizeof) c1 := by
            refine ⟨by rw [k1]; exact pre1.1, by rw [k2]; exact pre1.2.1, fun pr hpr => ?_⟩
            rw [k3] at hpr
            have := pre1.2.2 pr hpr
            rw [k1]
            exact this
          have hb : ∀ j, j < n + 1 → j * t.sizeof + t.sizeof ≤ (n + 1) * t.sizeof := fun j hj => mul_bound hj
          have hd := chain_done (e := e) (f := fun i c => ser e t (el + i * t.sizeof) (P.2 + i * t.sizeof) c)
            (R := fun i => Lay e t (el + i * t.sizeof) (P.2 + i * t.sizeof)) (p := fun i => P.2 + i * t.sizeof) (sz := fun _ => t.sizeof)
            (src := fun i => el + i * t.sizeof) (n + 1) 0 P.2 (P.2 + (n + 1) * t.sizeof) c1 (by omega) (by have := pre2.1; omega)
            (fun j _ hj => by have := hb j (by omega); omega)
            (fun j j' _ h1 h2 => by have := mul_bound (s := t.sizeof) h1; omega)
            (fun j _ hj => ⟨(pre2.sub (hb j (by omega))).2.1, (pre2.sub (hb j (by omega))).2.2⟩)
            (fun j _ hj c h1 h2 h3 => ih hw.2 _ (hok j (by omega)) _ c
              (Nat.dvd_add hpd (Nat.dvd_trans htp.2.2 (Nat.dvd_mul_left _ _))) ⟨h1, h2, h3⟩)
          rw [show P.2 + (n + 1) * t.sizeof - P.2 = (n + 1) * t.sizeof by omega] at hd
          have xx : Ext p (16 + 2 * sw) c c1 := (((Ext.refl p (16 + 2 * sw) c).trans x0 (by omega)).trans xb (by omega)).trans k4 (by omega)
          refine Done.after (lv1 := vecLeaves e sw a p (some P.2)) (pl1 := [] ++ ([] ++ pl1)) xx (fun l hl => ?_) hz
            (g0.trans ((Regs.of_same rfl rfl : Regs P.1 (P.1.setBuf b) []).trans k6 k4) (xb.trans k4 (by omega))) hd
            (Or.inr ⟨hpl, by rw [k1]; exact hpr.1⟩) fun L' lv pl hc => ?_
          · have hv := vecLeaves_within (L := c.len) (L' := c1.len) hl hsw
            exact ⟨k5 l hl, hv.2.2, by omega⟩
          · refine Or.inr ⟨by omega, el, P.2, lv, pl, hel, hpl, hpd, ?_, rfl, ?_⟩
            · rw [hn, ← hlen, ← k1]
              exact hc
            · rw [hn, k7]
              simp
        cases ix with
        | false =>
          exact key (P.1.setBuf b) [] rfl rfl rfl (Ext.refl _ _ _) fb (Regs.of_same rfl rfl) rfl
        | true =>
          obtain ⟨y1, y2, y3, y4⟩ := regRange_ext (P.1.setBuf b) el P.2 ((n + 1) * t.sizeof) p
          refine key _ _ y2 y3 y4 ((Ext.refl p (16 + 2 * sw) _).trans y1 (by omega)) (fun l hl => ?_) (regRange_regs _ _ _ _ t.alignof) rfl
          have hv := vecLeaves_within (L := c.len) (L' := c.len) hl hsw
          have hx0 := x0.len
          exact (fb l hl).mono y1 (by show l.1 + l.2.width ≤ P.1.len; omega) (by omega)
  | str =>
    intro hw a hok p c hal hpre
    have hz := hpre.1
    simp only [Ty.sizeof] at hz
    show Done e (serStr e a p c) _ _ _ _
    unfold serStr
    rcases hok with h1 | ⟨h0, hsz⟩
    · rw [if_pos h1]
      refine ⟨c, _, _, rfl, ⟨rfl, Or.inl ⟨h1, rfl, rfl⟩⟩, Ext.refl _ _ _, fun l hl => ?_, Regs.of_same rfl rfl⟩
      simp only [List.mem_singleton] at hl
      subst hl
      refine ⟨⟨?_, ?_⟩, Or.inl (by simp [Leaf.width, Ty.sizeof])⟩
      · rw [length_rd]; exact hpre.2.1
      · rw [length_rd]; exact hpre.2.2.noPend (Nat.le_refl _) (Nat.le_refl _)
    · rw [if_neg (by rw [h0]; decide), if_pos h0]
      have hp0 : c.buf p = 0#8 := by
        have := (rd_eq_iff.1 hpre.2.1) 0 (by simp [Ty.sizeof])
        simpa [h0] using this
      unfold serLong
      cases hx : ptrAt e.host e.raw e.mem (a + 8) with
      | none =>
        obtain ⟨b, eb, xb, fb⟩ := strHeader_done (e := e) (a := a) (s := none) hpre.1 hpre.2.2 hp0
        exact ⟨_, strLeaves e a p none, [], eb, ⟨rfl, Or.inr (Or.inl ⟨h0, hsz.2 hx, hx, rfl, rfl⟩)⟩, xb,
          fun l hl => ⟨fb l hl, (strLeaves_within hl).2.2⟩, Regs.of_same rfl rfl⟩
      | some x =>
        simp only
        have x0 := put_ext c (rd e.mem x (rdN e.host e.mem (a + 4) 4)) 0 p
        have hpr := put_pre (e := e) x (rdN e.host e.mem (a + 4) 4) 0 hpre.2.2
        have hpl : (put c (rd e.mem x (rdN e.host e.mem (a + 4) 4)) 0).2 = c.len := rfl
        have hlen := put_len c (rd e.mem x (rdN e.host e.mem (a + 4) 4)) 0
        have hnp := put_pend c (rd e.mem x (rdN e.host e.mem (a + 4) 4)) 0
        rw [length_rd] at hlen
        have g0 := put_regs c (rd e.mem x (rdN e.host e.mem (a + 4) 4)) 0
        generalize hP : put c (rd e.mem x (rdN e.host e.mem (a + 4) 4)) 0 = P at *
        have hx0 := x0.len
        have ho : Out p 16 P.1 := fun pr hpr => by
          rw [hnp] at hpr
          have h1 := hpre.2.2 pr hpr
          simp only [Ty.sizeof] at h1
          omega
        have hp1 : P.1.buf p = 0#8 := by rw [x0.buf p (by omega) (by omega), hp0]
        obtain ⟨b, eb, xb, fb⟩ := strHeader_done (e := e) (a := a) (s := some P.2) (c := P.1) (by omega) ho hp1
        have eo : ((P.2 : Int) - 8 - p) = offTo (p + 8) (some P.2) := by
          show _ = ((P.2 : Int) - ((p + 8 : Nat) : Int))
          push_cast
          omega
        rw [eo, eb]
        refine ⟨_, strLeaves e a p (some P.2) ++ [(P.2, .raw (rd e.mem x (rdN e.host e.mem (a + 4) 4)))], [], rfl,
          ⟨rfl, Or.inr (Or.inr ⟨h0, Nat.pos_of_ne_zero (fun h => by rw [hsz.1 h] at hx; cases hx), x, hx, ?_, by rw [hpl]⟩)⟩, ((Ext.refl p 16 c).trans x0 (by omega)).trans xb (by omega),
          fun l hl => ?_, Regs.trans g0 (Regs.of_same rfl rfl : Regs P.1 (P.1.setBuf b) []) xb⟩
        · show P.1.len = _
          rw [hlen, hpl]
        · rcases List.mem_append.1 hl with h | h
          · exact ⟨fb l h, (strLeaves_within h).2.2⟩
          · simp only [List.mem_singleton] at h
            subst h
            have q := hpr.mono xb rfl (by omega)
            refine ⟨⟨by rw [length_rd]; exact q.2.1, by rw [length_rd]; exact q.2.2.noPend (Nat.le_refl _) (Nat.le_refl _)⟩, Or.inr ?_⟩
            simp only [Leaf.width, length_rd]
            show _ ∧ _ ≤ P.1.len
            omega
  | uptr t ih =>
    intro hw a hok p c hal hpre
    have htp := Ty.pos_of_WF (t := t) hw
    have hz := hpre.1
    simp only [Ty.sizeof] at hz
    unfold ser
    have hin : ∀ s L L' l, l ∈ [(p, Leaf.own s), (p + 8, Leaf.raw [0#8])] → p ≤ l.1 ∧ l.1 + l.2.width ≤ p + 16 ∧
        Within p (Ty.uptr t).sizeof L L' l.1 l.2.width := by
      intro s L L' l hl
      simp only [List.mem_cons, List.not_mem_nil, or_false] at hl
      rcases hl with rfl | rfl <;> refine ⟨?_, ?_, Or.inl ?_⟩ <;> simp [Leaf.width, Ty.sizeof]
    cases hx : ptrAt e.host e.raw e.mem a with
    | none =>
      obtain ⟨b, eb, b', eb', xb, fb⟩ := uptrHeader_done (e := e) (s := none) hpre.1 hpre.2.2
      refine ⟨c.setBuf b', _, [], ?_, Or.inl ⟨hx, rfl, rfl, rfl⟩, xb, fun l hl => ⟨fb l hl, (hin _ _ _ l hl).2.2⟩, Regs.of_same rfl rfl⟩
      simp only
      rw [show NULLO = offTo p none from rfl, eb, ok_bind, eb']
    | some el =>
      simp only
      have hpr := put_pre (e := e) el t.sizeof t.alignof hpre.2.2
      have hpd := put_pos_dvd c (rd e.mem el t.sizeof) htp.1
      have hpl := put_pos_le c (rd e.mem el t.sizeof) t.alignof
      have x0 := put_ext c (rd e.mem el t.sizeof) t.alignof p
      have g0 := put_regs c (rd e.mem el t.sizeof) t.alignof
      have hnp := put_pend c (rd e.mem el t.sizeof) t.alignof
      have hlen := put_len c (rd e.mem el t.sizeof) t.alignof
      rw [length_rd] at hlen
      generalize hP : put c (rd e.mem el t.sizeof) t.alignof = P at *
      have hx0 := x0.len
      have ho : Out p 16 P.1 := fun pr hpr => by
        rw [hnp] at hpr
        have h1 := hpre.2.2 pr hpr
        simp only [Ty.sizeof] at h1
        omega
      obtain ⟨b, eb, b', eb', xb, fb⟩ := uptrHeader_done (e := e) (s := some P.2) (c := P.1) (p := p) (by omega) ho
      rw [show ((P.2 : Int) - p) = offTo p (some P.2) from rfl, eb, ok_bind, eb', ok_bind]
      have pre1 := hpr.mono xb rfl (by omega)
      have y1 := regSet_ext (P.1.setBuf b') el P.2 p
      have pre2 : Pre e el P.2 t.sizeof (regSet (P.1.setBuf b') el P.2) := pre1
      have hd := ih hw el (hok el hx) P.2 _ hpd pre2
      have xx : Ext p 16 c (regSet (P.1.setBuf b') el P.2) :=
        (((Ext.refl p 16 c).trans x0 (by omega)).trans xb (by omega)).trans y1 (by omega)
      refine Done.after (lv1 := [(p, Leaf.own (some P.2)), (p + 8, Leaf.raw [0#8])]) (pl1 := [] ++ ([] ++ [⟨true, el, P.2, t.sizeof, t.alignof⟩]))
        xx (fun l hl => ?_) hz
        (g0.trans ((Regs.of_same rfl rfl : Regs P.1 (P.1.setBuf b') []).trans (regSet_regs _ _ _ _ _) y1) (xb.trans y1 (by omega))) hd
        (Or.inr ⟨hpl, hpr.1⟩) fun L' lv pl hc => ?_
      · have hv := hin _ c.len (regSet (P.1.setBuf b') el P.2).len l hl
        refine ⟨(fb l hl).mono y1 ?_ ?_, hv.2.2, by omega⟩
        · show _ ≤ P.1.len
          omega
        · omega
      · refine Or.inr ⟨el, P.2, lv, pl, hx, hpl, hpd, ?_, rfl, rfl⟩
        rw [← hlen]
        exact hc
  | hash t ih =>
    intro hw a hok p c hal hpre
    have htp := Ty.pos_of_WF (t := t) hw
    have hz := hpre.1
    simp only [Ty.sizeof] at hz
    unfold ser
    rcases hok with ⟨hel, hcap, hsz⟩ | ⟨el, hel, hct, hcap, htab, hok⟩
    · rw [hel]
      simp only
      have x0 := put_ext c emptyGroup 1 p
      have hpl : (put c emptyGroup 1).2 = c.len := rfl
      have hlen := put_len c emptyGroup 1
      have hnp := put_pend c emptyGroup 1
      have hbuf := put_buf c emptyGroup 1
      rw [show emptyGroup.length = 16 from rfl] at hlen
      have g0 := put_regs c emptyGroup 1
      generalize hP : put c emptyGroup 1 = P at *
      have hx0 := x0.len
      have ho : Out p 48 P.1 := fun pr hpr => by
        rw [hnp] at hpr
        have h1 := hpre.2.2 pr hpr
        simp only [Ty.sizeof] at h1
        omega
      obtain ⟨b, eb, xb, fb⟩ := hashHeader_done (e := e) (a := a) (s := none) (ctrl := P.2) (c := P.1) (by omega) ho
      rw [eb]
      refine ⟨_, hashLeaves e a p none P.2 ++ [(P.2, .raw emptyGroup)], [], rfl, Or.inl ⟨hel, hcap, hsz, ?_, by rw [hpl], rfl⟩,
        ((Ext.refl p 48 c).trans x0 (by omega)).trans xb (by omega), fun l hl => ?_,
        Regs.trans g0 (Regs.of_same rfl rfl : Regs P.1 (P.1.setBuf b) []) xb⟩
      · show P.1.len = _
        rw [hlen, hpl]
      · rcases List.mem_append.1 hl with h | h
        · exact ⟨fb l h, (hashLeaves_within h).2.2⟩
        · simp only [List.mem_singleton] at h
          subst h
          have q : FS e P.1 (P.2, .raw emptyGroup) := by
            refine ⟨by rw [hbuf]; exact rd_wr_same _ _ _, fun pr hpr => ?_⟩
            rw [hnp] at hpr
            have h1 := hpre.2.2 pr hpr
            omega
          have e16 : (Leaf.raw emptyGroup).width = 16 := rfl
          refine ⟨q.mono xb (by show P.2 + 16 ≤ P.1.len; omega) (by show P.2 + 16 ≤ p ∨ p + 48 ≤ P.2; omega), Or.inr ?_⟩
          show c.len ≤ P.2 ∧ P.2 + 16 ≤ P.1.len
          omega
    · rw [hel]
      simp only
      rw [hct]
      generalize hn : rdN e.host e.mem (a + 24) 8 = n at *
      rw [show n + 1 + 8 = n + 9 from rfl]
      have hpr := put_pre (e := e) el (n * t.sizeof + (n + 9)) t.alignof hpre.2.2
      have hpd := put_pos_dvd c (rd e.mem el (n * t.sizeof + (n + 9))) htp.1
      have hpl := put_pos_le c (rd e.mem el (n * t.sizeof + (n + 9))) t.alignof
      have x0 := put_ext c (rd e.mem el (n * t.sizeof + (n + 9))) t.alignof p
      have g0 := put_regs c (rd e.mem el (n * t.sizeof + (n + 9))) t.alignof
      have hnp := put_pend c (rd e.mem el (n * t.sizeof + (n + 9))) t.alignof
      have hlen := put_len c (rd e.mem el (n * t.sizeof + (n + 9))) t.alignof
      rw [length_rd] at hlen
      generalize hP : put c (rd e.mem el (n * t.sizeof + (n + 9))) t.alignof = P at *
      have hx0 := x0.len
      have ho : Out p 48 P.1 := fun pr hpr => by
        rw [hnp] at hpr
        have h1 := hpre.2.2 pr hpr
        simp only [Ty.sizeof] at h1
        omega
      obtain ⟨b, eb, xb, fb⟩ := hashHeader_done (e := e) (a := a) (s := some P.2) (ctrl := P.2 + n * t.sizeof) (c := P.1) (by omega) ho
      rw [eb, ok_bind]
      have pre1 := hpr.mono xb rfl (by omega)
      have hb : ∀ j, j < n → j * t.sizeof + t.sizeof ≤ n * t.sizeof := fun j hj => mul_bound hj
      have hd := chain_done (e := e)
        (f := fun i c => if HS.isFull (e.mem (el + n * t.sizeof + i)).toNat then ser e t (el + i * t.sizeof) (P.2 + i * t.sizeof) c else .ok c)
        (R := fun i L L' lv pl =>
          (Full e.mem (el + n * t.sizeof) i → Lay e t (el + i * t.sizeof) (P.2 + i * t.sizeof) L L' lv pl) ∧
          (¬ Full e.mem (el + n * t.sizeof) i → L' = L ∧ lv = [] ∧ pl = []))
        (p := fun i => P.2 + i * t.sizeof) (sz := fun _ => t.sizeof)
        (src := fun i => el + i * t.sizeof) n 0 P.2 (P.2 + n * t.sizeof) (P.1.setBuf b) (by omega) (by have := pre1.1; omega)
        (fun j _ hj => by have := hb j (by omega); omega)
        (fun j j' _ h1 h2 => by have := mul_bound (s := t.sizeof) h1; omega)
        (fun j _ hj => by
          have hbj := hb j (by omega)
          exact ⟨(pre1.sub (k := j * t.sizeof) (sz' := t.sizeof) (by omega)).2.1, (pre1.sub (k := j * t.sizeof) (sz' := t.sizeof) (by omega)).2.2⟩)
        (fun j _ hj c h1 h2 h3 => by
          by_cases hf : Full e.mem (el + n * t.sizeof) j
          · rw [if_pos (show HS.isFull _ = true from hf)]
            obtain ⟨c', lv, pl, k1, k2, k3⟩ := ih hw _ (hok j (by omega) hf) _ c
              (Nat.dvd_add hpd (Nat.dvd_trans htp.2.2 (Nat.dvd_mul_left _ _))) ⟨h1, h2, h3⟩
            exact ⟨c', lv, pl, k1, ⟨fun _ => k2, fun h => absurd hf h⟩, k3⟩
          · rw [if_neg (show ¬ HS.isFull _ = true from hf)]
            exact ⟨c, [], [], rfl, ⟨fun h => absurd h hf, fun _ => ⟨rfl, rfl, rfl⟩⟩, Ext.refl _ _ _, fun l hl => by simp at hl,
              Regs.of_same rfl rfl⟩)
      rw [show P.2 + n * t.sizeof - P.2 = n * t.sizeof by omega] at hd
      have xx : Ext p 48 c (P.1.setBuf b) := ((Ext.refl p 48 c).trans x0 (by omega)).trans xb (by omega)
      refine Done.after (lv1 := hashLeaves e a p (some P.2) (P.2 + n * t.sizeof) ++ [(P.2 + n * t.sizeof, .raw (rd e.mem (el + n * t.sizeof) (n + 9)))])
        (pl1 := []) xx (fun l hl => ?_) hz (Regs.trans g0 (Regs.of_same rfl rfl : Regs P.1 (P.1.setBuf b) []) xb) hd
        (Or.inr ⟨hpl, by have := pre1.1; omega⟩) fun L' lv pl hc => ?_
      · rcases List.mem_append.1 hl with hl | hl
        · have hv := hashLeaves_within (L := c.len) (L' := P.1.len) hl
          exact ⟨fb l hl, hv.2.2, by omega⟩
        · simp only [List.mem_singleton] at hl
          subst hl
          have q := pre1.sub (k := n * t.sizeof) (sz' := n + 9) (by omega)
          refine ⟨⟨by rw [length_rd]; exact q.2.1, by rw [length_rd]; exact q.2.2.noPend (Nat.le_refl _) (Nat.le_refl _)⟩, Or.inr ?_, Or.inr ?_⟩
          · simp only [Leaf.width, length_rd]
            show _ ∧ _ ≤ P.1.len
            omega
          · simp only; omega
      · refine Or.inr ⟨el, P.2, lv, hel, by rw [hn]; exact hct, by omega, by rw [hn]; exact htab, hpl, hpd, ?_, ?_⟩
        · rw [hn, ← hlen]
          exact hc
        · rw [hn, List.append_assoc]
          rfl
  | opt t ih =>
    intro hw a hok p c hal hpre
    have htp := Ty.pos_of_WF (t := t) hw
    have hz := hpre.1
    simp only [Ty.sizeof, Ty.alignof] at hz hal hpre
    have hb : rd c.buf p 1 = [e.mem a] := by
      have := rd_sub (k := 0) (j := 1) hpre.2.1 (by omega)
      rw [Nat.add_zero, Nat.add_zero] at this
      rw [this, rd_one]
    have hf : FS e c (p, .raw [e.mem a]) := ⟨hb, hpre.2.2.noPend (Nat.le_refl _) (by simp; omega)⟩
    have hwi : ∀ L L', Within p (Ty.opt t).sizeof L L' p (Leaf.raw [e.mem a]).width := fun L L' => Or.inl (by simp [Leaf.width, Ty.sizeof]; omega)
    unfold ser
    rcases hok with h0 | ⟨h1, hok⟩
    · rw [if_neg (by rw [h0]; decide), if_pos h0]
      refine ⟨c, [(p, .raw [e.mem a])], [], rfl, Or.inl ⟨h0, rfl, by rw [h0], rfl⟩, Ext.refl _ _ _, fun l hl => ?_, Regs.of_same rfl rfl⟩
      simp only [List.mem_singleton] at hl
      subst hl
      exact ⟨hf, hwi _ _⟩
    · rw [if_pos h1]
      have hd := ih hw _ hok (p + t.alignof) c (Nat.dvd_add hal (Nat.dvd_refl _)) (hpre.sub (Nat.le_refl _))
      refine Done.after (lv1 := [(p, .raw [e.mem a])]) (pl1 := []) (Ext.refl _ _ _) (fun l hl => ?_) hz (Regs.of_same rfl rfl) hd
        (Or.inl ⟨by omega, by simp only [Ty.sizeof]; omega⟩) fun L' lv pl hc => Or.inr ⟨h1, lv, hc, by rw [h1]; rfl⟩
      simp only [List.mem_singleton] at hl
      subst hl
      refine ⟨hf, hwi _ _, Or.inl ?_⟩
      simp [Leaf.width]
      omega
  | var ib so s al n t ih =>
    intro hw a hok p c hal hpre
    simp only [Ty.WF] at hw
    obtain ⟨hib, hn, hso, hal', hdv, hia, hso', hs0, hti⟩ := hw
    have hz := hpre.1
    simp only [Ty.sizeof, Ty.alignof] at hz hal hpre
    obtain ⟨i, hi, hok⟩ := hok
    unfold ser
    rw [patch_ok' (by simp; omega), ok_bind]
    have x1 : Ext p ib c (c.setBuf (wr c.buf p (cv e.conv (rd e.mem a ib)))) := Ext.setBuf fun x hx => wr_out (by simpa using hx)
    have ht := hti i
    have hd := ih i ht.1 (a + so) hok (p + so) _ (Nat.dvd_add (Nat.dvd_trans ht.2.2.2 hal) ht.2.2.1)
      ((hpre.sub ht.2.1).mono x1 rfl (by omega))
    rw [dif_pos (show rdN e.host e.mem a ib < n by rw [hi]; exact i.2)]
    have hii : (⟨rdN e.host e.mem a ib, by rw [hi]; exact i.2⟩ : Fin n) = i := Fin.ext hi
    rw [hii]
    refine Done.after (lv1 := [(p, .int (rd e.mem a ib))]) (pl1 := []) ((Ext.refl p s c).trans x1 (by omega)) (fun l hl => ?_) hz
      (Regs.of_same rfl rfl) hd (Or.inl ⟨by omega, by simp only [Ty.sizeof]; omega⟩) fun L' lv pl hc => ⟨i, lv, hi, hc, rfl⟩
    simp only [List.mem_singleton] at hl
    subst hl
    refine ⟨⟨?_, ?_⟩, Or.inl ?_, Or.inl ?_⟩
    · rw [length_rd]; exact rd_wr_same' _ _ _ _ (by simp)
    · rw [length_rd]; exact hpre.2.2.noPend (Nat.le_refl _) (by omega)
    · simp [Leaf.width, Ty.sizeof]; omega
    · simp [Leaf.width]; omega
  | arr n t ih =>
    intro hw a hok p c hal hpre
    have htp := Ty.pos_of_WF (t := t) hw.2
    simp only [Ty.sizeof, Ty.alignof] at hal hpre ⊢
    have hb : ∀ j, j < n → j * t.sizeof + t.sizeof ≤ n * t.sizeof := fun j hj => mul_bound hj
    have hd := chain_done (e := e) (f := fun i c => ser e t (a + i * t.sizeof) (p + i * t.sizeof) c)
      (R := fun i => Lay e t (a + i * t.sizeof) (p + i * t.sizeof)) (p := fun i => p + i * t.sizeof) (sz := fun _ => t.sizeof)
      (src := fun i => a + i * t.sizeof) n 0 p (p + n * t.sizeof) c (by omega) hpre.1
      (fun j _ hj => by have := hb j (by omega); omega)
      (fun j j' _ h1 h2 => by have := mul_bound (s := t.sizeof) h1; omega)
      (fun j _ hj => ⟨(hpre.sub (hb j (by omega))).2.1, (hpre.sub (hb j (by omega))).2.2⟩)
      (fun j _ hj c h1 h2 h3 => ih hw.2 _ (hok j (by omega)) _ c
        (Nat.dvd_add hal (Nat.dvd_trans htp.2.2 (Nat.dvd_mul_left _ _))) ⟨h1, h2, h3⟩)
    rw [show p + n * t.sizeof - p = n * t.sizeof by omega] at hd
    exact hd
  | idx t ih =>
    intro hw a hok p c hal hpre
    simp only [Ty.sizeof, Ty.alignof] at hal hpre ⊢
    obtain ⟨y1, y2, y3, y4⟩ := regNew_ext c a p p
    have hd := ih hw a hok p (regNew c a p) hal (hpre.mono y1 y4 (by omega))
    exact Done.after (lv1 := []) (pl1 := [⟨true, a, p, t.sizeof, t.alignof⟩]) ((Ext.refl p t.sizeof c).trans y1 (by omega))
      (fun l hl => by simp at hl) hpre.1 (regNew_regs _ _ _ _ _) hd (Or.inl ⟨Nat.le_refl _, Nat.le_refl _⟩)
      fun L' lv pl hc => ⟨pl, by rw [← y2]; exact hc, rfl⟩
  | agg s al n off t ih =>
    intro hw a hok p c hal hpre
    simp only [Ty.WF] at hw
    obtain ⟨hs0, hal', hdv, hti, hord⟩ := hw
    simp only [Ty.sizeof, Ty.alignof] at hal hpre ⊢
    have hd := chain_done (e := e)
      (f := fun i c => if h : i < n then ser e (t ⟨i, h⟩) (a + off ⟨i, h⟩) (p + off ⟨i, h⟩) c else .ok c)
      (R := fun i L L' lv pl => ∃ h : i < n, Lay e (t ⟨i, h⟩) (a + off ⟨i, h⟩) (p + off ⟨i, h⟩) L L' lv pl)
      (p := fun j => if h : j < n then p + off ⟨j, h⟩ else p) (sz := fun j => if h : j < n then (t ⟨j, h⟩).sizeof else 0)
      (src := fun j => if h : j < n then a + off ⟨j, h⟩ else a) n 0 p (p + s) c (by omega) hpre.1
      (fun j _ hj => by
        have hjn : j < n := by omega
        simp only [dif_pos hjn]
        have := (hti ⟨j, hjn⟩).2.1
        omega)
      (fun j j' _ h1 h2 => by
        have hjn : j < n := by omega
        have hjn' : j' < n := by omega
        simp only [dif_pos hjn, dif_pos hjn']
        have := hord ⟨j, hjn⟩ ⟨j', hjn'⟩ h1
        omega)
      (fun j _ hj => by
        have hjn : j < n := by omega
        simp only [dif_pos hjn]
        exact ⟨(hpre.sub (hti ⟨j, hjn⟩).2.1).2.1, (hpre.sub (hti ⟨j, hjn⟩).2.1).2.2⟩)
      (fun j _ hj c h1 h2 h3 => by
        have hjn : j < n := by omega
        simp only [dif_pos hjn] at h1 h2 h3 ⊢
        have ht := hti ⟨j, hjn⟩
        obtain ⟨c', lv, pl, k1, k2, k3⟩ := ih ⟨j, hjn⟩ ht.1 _ (hok ⟨j, hjn⟩) _ c (Nat.dvd_add (Nat.dvd_trans ht.2.2.2 hal) ht.2.2.1) ⟨h1, h2, h3⟩
        exact ⟨c', lv, pl, k1, ⟨hjn, k2⟩, k3⟩)
    rw [show p + s - p = s by omega] at hd
    exact hd

end Cista.Ser

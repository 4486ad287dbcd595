import Verif.Ser.DeepOk

/-!
# Root object, pending pointers, round trip
-/
set_option linter.unusedSimpArgs false
set_option linter.unusedSectionVars false

namespace Cista.Ser

variable {e : SEnv} {d : DEnv} {base : Nat}

/-! ## Pending pointers -/

/-- What a pointer member refers to after both passes; `w` allows unresolved ones for another reason. -/
def Goal (c : Ctx) (w : Nat → Prop) (x : Option Nat) (pt : Pointee) (tg : Option Nat) : Prop :=
  match pt, x with
  | .void, _ => tg = none
  | .obj _, none => tg = none
  | .obj _, some v => (∃ y, tg = some y ∧ Known c v y) ∨ (tg = none ∧ (resolved c v = none ∨ w v))

theorem pending_done (c : Ctx) : ∀ (ps : List (Nat × Nat)) (b : Mem), (∀ pr ∈ ps, pr.2 + 8 ≤ c.len) →
    ∃ b', resolvePending e ps (c.setBuf b) = .ok (c.setBuf b') ∧
      (∀ x, (∀ pr ∈ ps, x < pr.2 ∨ pr.2 + 8 ≤ x) → b' x = b x) ∧
      ∀ q x pt, (∃ tg, rd b q 8 = cv e.conv (encI e.host (offTo q tg)) ∧ Goal c (fun v => (v, q) ∈ ps) x pt tg) →
        (∀ pr ∈ ps, (pr.2 + 8 ≤ q ∨ q + 8 ≤ pr.2) ∨ (pr.2 = q ∧ x = some pr.1 ∧ pt ≠ .void)) →
        ∃ tg, rd b' q 8 = cv e.conv (encI e.host (offTo q tg)) ∧ Goal c (fun _ => False) x pt tg
  | [], b, _ => ⟨b, rfl, fun _ _ => rfl, fun q x pt ⟨tg, h1, h2⟩ _ => ⟨tg, h1, by
      unfold Goal at h2 ⊢
      cases pt <;> cases x <;> simp_all⟩⟩
  | (v0, q0) :: ps, b, hb => by
    have hq0 := hb (v0, q0) List.mem_cons_self
    simp only at hq0
    have hres : resolved (c.setBuf b) v0 = resolved c v0 := rfl
    cases hr : resolved c v0 with
    | none =>
      obtain ⟨b', e1, e2, e3⟩ := pending_done c ps b fun pr h => hb pr (List.mem_cons_of_mem _ h)
      refine ⟨b', ?_, fun x hx => e2 x fun pr h => hx pr (List.mem_cons_of_mem _ h), fun q x pt ⟨tg, h1, h2⟩ h3 => e3 q x pt ⟨tg, h1, ?_⟩
        fun pr h => h3 pr (List.mem_cons_of_mem _ h)⟩
      · unfold resolvePending
        rw [hres, hr]
        exact e1
      · unfold Goal at h2 ⊢
        cases pt with
        | void => exact h2
        | obj n =>
          cases x with
          | none => exact h2
          | some v =>
            rcases h2 with h2 | ⟨h2, h4 | h4⟩
            · exact Or.inl h2
            · exact Or.inr ⟨h2, Or.inl h4⟩
            · rcases List.mem_cons.1 h4 with h4 | h4
              · injection h4 with h5 h6
                subst h5
                exact Or.inr ⟨h2, Or.inl hr⟩
              · exact Or.inr ⟨h2, Or.inr h4⟩
    | some y =>
      obtain ⟨b', e1, e2, e3⟩ := pending_done c ps (wr b q0 (cv e.conv (encI e.host ((y : Int) - q0)))) fun pr h => hb pr (List.mem_cons_of_mem _ h)
      refine ⟨b', ?_, fun x hx => ?_, fun q x pt ⟨tg, h1, h2⟩ h3 => ?_⟩
      · unfold resolvePending
        rw [hres, hr]
        simp only
        unfold patchOff
        rw [patch_ok' (by simp only [length_cv, length_encI]; exact hq0), ok_bind]
        exact e1
      · rw [e2 x fun pr h => hx pr (List.mem_cons_of_mem _ h)]
        have := hx (v0, q0) List.mem_cons_self
        exact wr_out (by simpa using this)
      · have h30 := h3 (v0, q0) List.mem_cons_self
        have h3' := fun pr h => h3 pr (List.mem_cons_of_mem _ h)
        simp only at h30
        rcases h30 with hd | ⟨hq, hx, hpt⟩
        · refine e3 q x pt ⟨tg, ?_, ?_⟩ h3'
          · rw [rd_wr_disj (by simp; omega), h1]
          · unfold Goal at h2 ⊢
            cases pt with
            | void => exact h2
            | obj n =>
              cases x with
              | none => exact h2
              | some v =>
                rcases h2 with h2 | ⟨h2, h4 | h4⟩
                · exact Or.inl h2
                · exact Or.inr ⟨h2, Or.inl h4⟩
                · rcases List.mem_cons.1 h4 with h4 | h4
                  · injection h4 with h5 h6
                    omega
                  · exact Or.inr ⟨h2, Or.inr h4⟩
        · subst hq; subst hx
          refine e3 q0 _ pt ⟨some y, ?_, ?_⟩ h3'
          · rw [rd_wr_same' _ _ _ _ (by simp)]
            rfl
          · unfold Goal
            cases pt with
            | void => exact absurd rfl hpt
            | obj n => exact Or.inl ⟨y, rfl, resolved_known hr⟩

/-! ## Completeness of the tables -/

theorem predRange_max {x : Nat} : ∀ {l : List (Nat × Nat × Nat)} {r}, r ∈ l → r.1 ≤ x → ∃ r', predRange x l = some r' ∧ r.1 ≤ r'.1
  | [], _, h, _ => by simp at h
  | q :: qs, r, h, hx => by
    unfold predRange
    rcases List.mem_cons.1 h with h | h
    · subst h
      cases hp : predRange x qs with
      | none => exact ⟨r, by simp [hx], Nat.le_refl _⟩
      | some r' =>
        simp only
        split
        · exact ⟨r, rfl, Nat.le_refl _⟩
        · exact ⟨r', rfl, by omega⟩
    · obtain ⟨r', h1, h2⟩ := predRange_max h hx
      rw [h1]
      simp only
      split
      · exact ⟨q, rfl, by omega⟩
      · exact ⟨r', rfl, h2⟩

theorem known_covers {c0 c : Ctx} {pl : List Place} (hr : Regs c0 c pl) (ho : c0.offs = []) (hg : c0.rngs = []) {v y : Nat}
    (h : Known c v y) : ∃ g ∈ pl, g.covers v y := by
  rcases h with h | ⟨r, h, h1, h2, h3⟩
  · rcases hr.so _ h with h | ⟨g, hg, k1, k2, k3⟩
    · rw [ho] at h; simp at h
    · exact ⟨g, hg, by unfold Place.covers; rw [if_pos k1]; exact ⟨k2.symm, k3.symm⟩⟩
  · rcases hr.sr _ h with h | ⟨g, hg', k1, k2, k3, k4⟩
    · rw [hg] at h; simp at h
    · refine ⟨g, hg', ?_⟩
      unfold Place.covers
      rw [if_neg (by rw [k1]; decide), k2, k3, k4]
      exact ⟨h1, h2, h3⟩

theorem covers_known {t : Ty} {a p L L' : Nat} {lv : List (Nat × Leaf)} {c0 c : Ctx} {pl : List Place} (hM : t.Al base)
    (hl : Lay e t a p L L' lv pl) (hap : Apart e.side t a) (hr : Regs c0 c pl)
    (ho : c0.offs = []) (hg0 : c0.rngs = []) {g : Place} (hg : g ∈ pl) {v z : Nat} (h : g.covers v z) : ∃ y, resolved c v = some y := by
  have hsrc := (Lay.source (P := fun _ _ => True) t hM _ _ _ _ _ _ hl).2
  unfold resolved
  cases hf : findOff v c.offs with
  | some y => exact ⟨y, rfl⟩
  | none =>
    simp only
    unfold Place.covers at h
    cases hx : g.exact with
    | true =>
      rw [hx, if_pos rfl] at h
      obtain ⟨y, hy⟩ := hr.co g hg hx
      rw [← h.1] at hy
      exact absurd hy (findOff_none hf y)
    | false =>
      rw [hx, if_neg (by decide)] at h
      obtain ⟨r, hrm, hr1⟩ := hr.cr g hg hx
      obtain ⟨r', h1, h2⟩ := predRange_max hrm (show r.1 ≤ v by omega)
      obtain ⟨h3, h4⟩ := predRange_mem h1
      rcases hr.sr _ h3 with h5 | ⟨g', hg', k1, k2, k3, k4⟩
      · rw [hg0] at h5; simp at h5
      · have o1 := (hsrc g hg).2
        have o2 := (hsrc g' hg').2
        rw [hx] at o1
        rw [k1] at o2
        have := hap _ _ _ _ _ _ o1 o2 (by omega) (by omega)
        unfold resolveRange
        rw [h1]
        obtain ⟨b, s, n⟩ := r'
        simp only at h2 h4 k2 k3 k4 ⊢
        rw [if_pos (by omega)]
        exact ⟨_, rfl⟩

/-! ## The whole serializer -/

/-- Parts after both passes. -/
def FE (e : SEnv) (c : Ctx) (b : Mem) : Nat × Leaf → Prop
  | (q, .int bs) => rd b q bs.length = cv e.conv bs
  | (q, .raw bs) => rd b q bs.length = bs
  | (q, .own o) => rd b q 8 = cv e.conv (encI e.host (offTo q o))
  | (q, .ptr x pt) => ∃ tg, rd b q 8 = cv e.conv (encI e.host (offTo q tg)) ∧ Goal c (fun _ => False) x pt tg

/-- Position of the root object after `n` header bytes. -/
def rootPos (n al : Nat) : Nat := if al > 1 then Target.alignUp n al else n

theorem root_done {t : Ty} (hw : t.WF) {a : Nat} (hok : Ok e t a) (hdr : List Byte) :
    ∃ c0 c b lv pl, serRoot e t a hdr = .ok (c.setBuf b, rootPos hdr.length t.alignof) ∧ hdr.length ≤ rootPos hdr.length t.alignof ∧
      t.alignof ∣ rootPos hdr.length t.alignof ∧ c0.offs = [] ∧ c0.rngs = [] ∧
      Lay e t a (rootPos hdr.length t.alignof) (rootPos hdr.length t.alignof + t.sizeof) c.len lv pl ∧ (∀ l ∈ lv, FE e c b l) ∧ Regs c0 c pl ∧
      rootPos hdr.length t.alignof + t.sizeof ≤ c.len ∧ ∀ i, (h : i < hdr.length) → b i = hdr[i] := by
  have hpos := Ty.pos_of_WF (t := t) hw
  generalize hc0 : (put ⟨0, fun _ => 0#8, [], [], []⟩ hdr 0).1 = c0
  have hlen0 : c0.len = hdr.length := by rw [← hc0, put_len]; simp [put]
  have ho0 : c0.offs = [] := by rw [← hc0]; rfl
  have hr0 : c0.rngs = [] := by rw [← hc0]; rfl
  have hp0 : c0.pend = [] := by rw [← hc0]; rfl
  have hb0 : ∀ i, (h : i < hdr.length) → c0.buf i = hdr[i] := by
    intro i h
    rw [← hc0, put_buf]
    have hz : (put ⟨0, fun _ => 0#8, [], [], []⟩ hdr 0).2 = 0 := by simp [put]
    rw [hz]
    unfold wr
    rw [if_pos (by omega)]
    simp [List.getD_eq_getElem?_getD, h]
  have hpp : (put c0 (rd e.mem a t.sizeof) t.alignof).2 = rootPos hdr.length t.alignof := by
    unfold put rootPos
    simp only [hlen0]
  have hdv := put_pos_dvd c0 (rd e.mem a t.sizeof) (al := t.alignof) hpos.1
  have hle := put_pos_le c0 (rd e.mem a t.sizeof) t.alignof
  have hpre := put_pre (e := e) (p := 0) (sz := 0) a t.sizeof t.alignof (c := c0) (fun pr hpr => by rw [hp0] at hpr; simp at hpr)
  have hlen1 := put_len c0 (rd e.mem a t.sizeof) t.alignof
  have hpend1 := put_pend c0 (rd e.mem a t.sizeof) t.alignof
  have hbuf1 := put_buf c0 (rd e.mem a t.sizeof) t.alignof
  have hreg1 := put_regs c0 (rd e.mem a t.sizeof) t.alignof
  rw [length_rd] at hlen1
  rw [hp0] at hpend1
  have hrun : serRoot e t a hdr = (do
      let c ← ser e t a (put c0 (rd e.mem a t.sizeof) t.alignof).2 (put c0 (rd e.mem a t.sizeof) t.alignof).1
      let c' ← resolvePending e c.pend c
      .ok (c', (put c0 (rd e.mem a t.sizeof) t.alignof).2)) := by
    rw [← hc0]; rfl
  rw [hrun]
  generalize (put c0 (rd e.mem a t.sizeof) t.alignof).1 = c1 at *
  rw [hpp] at *
  generalize hp : rootPos hdr.length t.alignof = p at *
  obtain ⟨c, lv, pl, e1, r1, x1, l1, g1⟩ := ser_done t hw a hok p c1 hdv hpre
  have hlen := x1.len
  obtain ⟨nw, en, hnw⟩ := x1.pend
  rw [hpend1, List.nil_append] at en
  rw [hlen1] at hlen hnw
  have hin : ∀ pr ∈ c.pend, p ≤ pr.2 ∧ pr.2 + 8 ≤ c.len := by
    intro pr hpr
    rw [en] at hpr
    have := hnw pr hpr
    unfold Within at this
    omega
  obtain ⟨b, e2, k1, k2⟩ := pending_done (e := e) c c.pend c.buf fun pr hpr => (hin pr hpr).2
  refine ⟨c0, c, b, lv, pl, ?_, by omega, hdv, ho0, hr0, ?_, fun l hl => ?_, ?_, by omega, fun i hi => ?_⟩
  · rw [e1, ok_bind, show c = c.setBuf c.buf from rfl]
    rw [show (c.setBuf c.buf).pend = c.pend from rfl, e2, ok_bind]
    rfl
  · rw [← hlen1]; exact r1
  · obtain ⟨f1, f2⟩ := l1 l hl
    obtain ⟨q, l⟩ := l
    have hsame : ∀ w, NoPend c q w → rd b q w = rd c.buf q w := fun w hn => rd_congr fun x h1 h2 => k1 x fun pr hpr => by
      have := hn pr hpr
      omega
    cases l with
    | int bs => exact (hsame _ f1.2).trans f1.1
    | raw bs => exact (hsame _ f1.2).trans f1.1
    | own o => exact (hsame _ f1.2).trans f1.1
    | ptr x pt =>
      obtain ⟨tg, h1, h2, h3⟩ := f1
      refine k2 q x pt ⟨tg, h1, ?_⟩ fun pr hpr => ?_
      · unfold Goal
        cases pt with
        | void => exact h2
        | obj n =>
          cases x with
          | none => exact h2
          | some v =>
            rcases h2 with h2 | ⟨h2, h4⟩
            · exact Or.inl h2
            · exact Or.inr ⟨h2, Or.inr h4⟩
      · rcases h3 pr hpr with h | ⟨h, _, h4, h5⟩
        · exact Or.inl h
        · exact Or.inr ⟨h, h4, h5⟩
  · have := hreg1.trans g1 x1
    exact this
  · rw [k1 i fun pr hpr => by have := hin pr hpr; omega, x1.buf i (by omega) (by omega), hbuf1, wr_out (by omega)]
    exact hb0 i hi

/-! ## Round trip -/

/-- The pointer member of the copy refers to the copy of what the original refers to; it is null if that was not serialized. -/
def Follows (s t : Side) (ty : Ty) (a b : Nat) (v : Nat) (o : Option Nat) : Prop :=
  (∃ y, o = some y ∧ Corr s t ty a b v y) ∨ (o = none ∧ ∀ y, ¬ Corr s t ty a b v y)

/-- Pointers to a serialized object have a target type that fits. -/
def PtrsTyped (d : DEnv) (s : Side) (t : Ty) (a : Nat) : Prop := Ptrs s (fun n v => Typed s t a (d.obj n).1 (d.obj n).2 v) t a

theorem round_trip {t : Ty} (hw : t.WF) {a : Nat} (hok : Ok e t a) (hap : Apart e.side t a) (hdr : List Byte) :
    ∃ c, serRoot e t a hdr = .ok (c, rootPos hdr.length t.alignof) ∧ (∀ i, (h : i < hdr.length) → c.buf i = hdr[i]) ∧
      rootPos hdr.length t.alignof + t.sizeof ≤ c.len ∧
      ∀ (d : DEnv) (base : Nat) (m : Mem), Linked e d base c.len → t.Al base → t.IdxOk d.conv →
        (d.unchecked = false → PtrsTyped d e.side t a) → (∀ x, hdr.length ≤ x → x < c.len → m (base + x) = c.buf x) →
        ∃ m', deser d t (base + rootPos hdr.length t.alignof) m = .ok m' ∧
          Same e.side (d.side m') (Follows e.side (d.side m') t a (base + rootPos hdr.length t.alignof)) t a
            (base + rootPos hdr.length t.alignof) ∧
          (∀ x, x < base + hdr.length ∨ base + c.len ≤ x → m' x = m x) ∧
          ∀ tys f vis, PtrsDeep base tys e.side t a →
            deepT d m' (deep d m' tys f) t (base + rootPos hdr.length t.alignof) vis ≠ .error .exn := by
  obtain ⟨c0, c, b, lv, pl, hrun, hge, hdv, ho0, hr0, hlay, hfe, hreg, hfit, hhdr⟩ := root_done hw hok hdr
  refine ⟨c.setBuf b, hrun, hhdr, hfit, fun d base m hk hM hi hty hm => ?_⟩
  have hm : ∀ x, hdr.length ≤ x → x < c.len → m (base + x) = b x := hm
  have hk : Linked e d base c.len := hk
  generalize rootPos hdr.length t.alignof = p at *
  obtain ⟨geo1, geo2, geo3⟩ := Lay.geo t hw a p _ _ lv pl hdv (Nat.le_refl _) hlay
  have hcov : ∀ v y, Known c v y → ∃ g ∈ pl, g.covers v y := fun v y => known_covers hreg ho0 hr0
  -- what pointer members satisfy
  let G : Option Nat → Pointee → Option Nat → Prop := fun x pt tg => Goal c (fun _ => False) x pt tg ∧
    (d.unchecked = false → ∀ v n, x = some v → pt = .obj n → Typed e.side t a (d.obj n).1 (d.obj n).2 v) ∧
    ∀ tys, PtrsDeep base tys e.side t a → ∀ v n, x = some v → pt = .obj n → HasTy base e.side t a (tys n) v
  have hw' : ∀ l ∈ lv, Fw e base G m l := by
    intro l hl
    have hfl := hfe l hl
    have hwi := geo2 l hl
    have hsrc := fun hu => (Lay.source t hM _ _ _ _ _ _ hlay).1 (hty hu) l hl
    have hsrc' := fun (tys : Nat → Ty) hd => (Lay.source (P := fun n v => HasTy base e.side t a (tys n) v) t hM _ _ _ _ _ _ hlay).1 hd l hl
    obtain ⟨q, l⟩ := l
    have hmm : ∀ w, w = l.width → rd m (base + q) w = rd b q w := fun w hww => rd_eq_iff.2 fun i hi => by
      unfold Within at hwi
      simp only at hwi
      rw [Nat.add_assoc]
      exact hm (q + i) (by omega) (by omega)
    cases l with
    | int bs => exact (hmm _ rfl).trans hfl
    | raw bs => exact (hmm _ rfl).trans hfl
    | own o => exact (hmm _ rfl).trans hfl
    | ptr x pt =>
      obtain ⟨tg, h1, h2⟩ := hfl
      exact ⟨tg, (hmm _ rfl).trans h1, h2, (fun hu v n hx hp => hsrc hu v n (by rw [hx, hp])),
        fun tys hd v n hx hp => hsrc' tys hd v n (by rw [hx, hp])⟩
  have hbig : ∀ x pt tg, G x pt tg → ∀ y, tg = some y → pt ≠ .void ∧ y ≤ c.len ∧
      (d.unchecked = false → y + (pointee d pt).1 ≤ c.len ∧ ((pointee d pt).2 = 0 ∨ (base + y) % (pointee d pt).2 = 0)) := by
    intro x pt tg hG y hy
    obtain ⟨hG1, hG2, -⟩ := hG
    unfold Goal at hG1
    subst hy
    cases pt with
    | void => cases hG1
    | obj n =>
      cases x with
      | none => cases hG1
      | some v =>
        rcases hG1 with ⟨y', h1, h2⟩ | ⟨h1, _⟩
        · injection h1 with h1
          subst h1
          obtain ⟨g, hg, hcv⟩ := hcov v y h2
          obtain ⟨w1, w2⟩ := geo3 g hg
          obtain ⟨s1, s2⟩ := (Lay.source (P := fun _ _ => True) t hM _ _ _ _ _ _ hlay).2 g hg
          unfold Within at w1
          unfold Place.covers at hcv
          cases hx : g.exact with
          | true =>
            rw [hx] at s2
            rw [hx, if_pos rfl] at hcv
            refine ⟨(fun h => by cases h), by omega, fun hu => ?_⟩
            obtain ⟨t1, t2⟩ := (hG2 hu v n rfl rfl).1 g.n g.al (by rw [hcv.1]; exact s2)
            refine ⟨by simp only [pointee]; omega, Or.inr (Nat.mod_eq_zero_of_dvd ?_)⟩
            rw [hcv.2]
            exact Nat.dvd_add (Nat.dvd_trans t2 s1) (Nat.dvd_trans t2 w2)
          | false =>
            rw [hx] at s2
            rw [hx, if_neg (by decide)] at hcv
            refine ⟨(fun h => by cases h), by omega, fun hu => ?_⟩
            obtain ⟨t1, t2, t3⟩ := (hG2 hu v n rfl rfl).2 g.v g.n g.al s2 hcv.1 hcv.2.1
            refine ⟨by simp only [pointee]; omega, Or.inr (Nat.mod_eq_zero_of_dvd ?_)⟩
            rw [hcv.2.2]
            exact Nat.dvd_add (Nat.dvd_trans t2 s1) (Nat.dvd_add (Nat.dvd_trans t2 w2) t3)
        · cases h1
  obtain ⟨m', hd1, hd2, hd3⟩ := deser_good hk (fun x pt tg h y hy => (hbig x pt tg h y hy).2) t hw hM hi a p _ _ lv pl m hdv (Nat.le_refl _) (Nat.le_refl _) hlay hw'
  refine ⟨m', hd1, ?_, (fun x hx => by
    have hx : x < base + hdr.length ∨ base + c.len ≤ x := hx
    exact hd3 x (by omega) (by omega)), fun tys f vis hdp => ?_⟩
  rotate_left
  · have hl : ∀ q x n, (q, Leaf.ptr x (.obj n)) ∈ lv → ∀ y, G x (.obj n) (some y) → ∃ v, Laid e base c.len lv (tys n) v y 1 := by
      intro q x n _ y hGy
      obtain ⟨hG1, -, hG3⟩ := hGy
      unfold Goal at hG1
      cases x with
      | none => cases hG1
      | some v =>
        rcases hG1 with ⟨y', h1, h2⟩ | ⟨h1, _⟩
        · injection h1 with h1
          subst h1
          obtain ⟨g, hg, hcv⟩ := hcov v y h2
          exact ⟨v, Lay.pointee hw hM hdv (Nat.le_refl _) hlay hg hcv (hG3 tys hdp v n rfl rfl)⟩
        · cases h1
    exact deepT_acc hk hbig t hw hM a p _ _ lv pl hdv (Nat.le_refl _) (Nat.le_refl _) hlay hd2
      (fun q x n hq y hy vis => by
        obtain ⟨v, hv⟩ := hl q x n hq y hy
        exact deep_acc hk hbig hd2 hl f n v y hv vis) vis
  refine Lay.same hk (fun x pt tg hG y hy => (hbig x pt tg hG y hy).2.1) ?_ t hw a p _ _ lv pl hfit (Nat.le_refl _) hlay hd2
  intro x pt tg hG
  obtain ⟨hG1, -⟩ := hG
  unfold Goal at hG1
  cases pt with
  | void => exact hG1
  | obj n =>
    cases x with
    | none => exact hG1
    | some v =>
      have hcor := fun y => Lay.corr hk v y t hw a p _ _ lv pl hfit (Nat.le_refl _) hlay hd2
      rcases hG1 with ⟨y, h1, h2⟩ | ⟨h1, h2 | h2⟩
      · subst h1
        obtain ⟨g, hg, hcv⟩ := hcov v y h2
        exact Or.inl ⟨base + y, rfl, (hcor _).2 ⟨g, hg, y, hcv, rfl⟩⟩
      · subst h1
        refine Or.inr ⟨rfl, fun y hc => ?_⟩
        obtain ⟨g, hg, z, hz, _⟩ := (hcor y).1 hc
        obtain ⟨y', hy'⟩ := covers_known hM hlay hap hreg ho0 hr0 hg hz
        rw [h2] at hy'
        cases hy'
      · cases h2

end Cista.Ser

import Verif.Ser.SerOk

/-!
# The deserializer on well formed data
-/
set_option linter.unusedSimpArgs false
set_option linter.unusedSectionVars false

namespace Cista.Ser

/-! ## Byte order -/

/-- Whether the two machines have different byte orders. -/
def cross (e : SEnv) (d : DEnv) : Bool := decide (e.host ≠ d.host)

/-- Serializer and deserializer agree on the byte order of the data; the data is loaded at `base`, with `N` bytes. -/
structure Linked (e : SEnv) (d : DEnv) (base N : Nat) : Prop where
  order : e.conv = d.conv ↔ e.host = d.host
  lo : 0 < d.lo
  start : d.lo ≤ base
  fits : base + N ≤ d.hi
  hi : d.hi < 2 ^ 63

variable {e : SEnv} {d : DEnv} {base N : Nat}

theorem Linked.cv (h : Linked e d base N) (bs : List Byte) : Ser.cv d.conv (Ser.cv e.conv bs) = Ser.cv (cross e d) bs := by
  have := h.order
  unfold Ser.cv cross
  cases h1 : e.conv <;> cases h2 : d.conv <;> rw [h1, h2] at this <;> simp only [Bool.false_eq_true, if_false, if_true]
  · rw [if_neg (by simpa using this)]
  · rw [if_pos (by simpa using this)]
  · rw [if_pos (by simpa using this)]
  · rw [if_neg (by simpa using this), List.reverse_reverse]

theorem ofHost_cross (bs : List Byte) : ofHost d.host (Ser.cv (cross e d) bs) = ofHost e.host bs := by
  unfold cross Ser.cv
  cases e.host <;> cases d.host <;> simp [ofHost]

theorem cross_encI (i : Int) : Ser.cv (cross e d) (encI e.host i) = encI d.host i := by
  unfold cross Ser.cv encI
  cases e.host <;> cases d.host <;> simp [hostBytes]

/-! ## Parts in memory -/

/-- Stored bytes of a converted pointer at position `q` with target position `tg`. -/
def ptrBytes (d : DEnv) (base q : Nat) (tg : Option Nat) : List Byte :=
  if d.raw then encI d.host (match tg with | none => 0 | some y => ((base + y : Nat) : Int)) else encI d.host (offTo q tg)

@[simp] theorem length_ptrBytes (q : Nat) (tg : Option Nat) : (ptrBytes d base q tg).length = 8 := by
  unfold ptrBytes; split <;> simp

/-- Address of a target. -/
def addrOf (base : Nat) : Option Nat → Int
  | none => 0
  | some y => ((base + y : Nat) : Int)

/-- A part as it is on the wire; `G` relates source and target of pointer members. -/
def Fw (e : SEnv) (base : Nat) (G : Option Nat → Pointee → Option Nat → Prop) (m : Mem) : Nat × Leaf → Prop
  | (q, .int bs) => rd m (base + q) bs.length = cv e.conv bs
  | (q, .raw bs) => rd m (base + q) bs.length = bs
  | (q, .own o) => rd m (base + q) 8 = cv e.conv (encI e.host (offTo q o))
  | (q, .ptr x pt) => ∃ tg, rd m (base + q) 8 = cv e.conv (encI e.host (offTo q tg)) ∧ G x pt tg

/-- A part as it is in memory after deserialization. -/
def Fm (e : SEnv) (d : DEnv) (base : Nat) (G : Option Nat → Pointee → Option Nat → Prop) (m : Mem) : Nat × Leaf → Prop
  | (q, .int bs) => rd m (base + q) bs.length = cv (cross e d) bs
  | (q, .raw bs) => rd m (base + q) bs.length = bs
  | (q, .own o) => rd m (base + q) 8 = ptrBytes d base q o
  | (q, .ptr x pt) => ∃ tg, rd m (base + q) 8 = ptrBytes d base q tg ∧ G x pt tg

variable {G : Option Nat → Pointee → Option Nat → Prop}

theorem Fw.congr {m m' : Mem} {l : Nat × Leaf} (h : rd m' (base + l.1) l.2.width = rd m (base + l.1) l.2.width) (hl : Fw e base G m l) :
    Fw e base G m' l := by
  obtain ⟨q, l⟩ := l
  cases l with
  | int bs => exact h.trans hl
  | raw bs => exact h.trans hl
  | own o => exact h.trans hl
  | ptr x pt =>
    obtain ⟨tg, h1, h2⟩ := hl
    exact ⟨tg, h.trans h1, h2⟩

theorem Fm.congr {m m' : Mem} {l : Nat × Leaf} (h : rd m' (base + l.1) l.2.width = rd m (base + l.1) l.2.width) (hl : Fm e d base G m l) :
    Fm e d base G m' l := by
  obtain ⟨q, l⟩ := l
  cases l with
  | int bs => exact h.trans hl
  | raw bs => exact h.trans hl
  | own o => exact h.trans hl
  | ptr x pt =>
    obtain ⟨tg, h1, h2⟩ := hl
    exact ⟨tg, h.trans h1, h2⟩

/-- Only the object at `[p, p+sz)` and `[L, L')` changed. -/
def Frame (base p sz L L' : Nat) (m m' : Mem) : Prop :=
  ∀ x, (x < base + p ∨ base + p + sz ≤ x) → (x < base + L ∨ base + L' ≤ x) → m' x = m x

theorem Frame.rd {p sz L L' q w : Nat} {m m' : Mem} (h : Frame base p sz L L' m m') (h1 : q + w ≤ p ∨ p + sz ≤ q)
    (h2 : q + w ≤ L ∨ L' ≤ q) : rd m' (base + q) w = rd m (base + q) w :=
  rd_congr fun x hx hx' => h x (by omega) (by omega)

theorem Frame.trans {p sz L L' p1 sz1 L1 L1' p2 sz2 L2 L2' : Nat} {m m1 m2 : Mem} (h1 : Frame base p1 sz1 L1 L1' m m1)
    (h2 : Frame base p2 sz2 L2 L2' m1 m2)
    (a1 : (p ≤ p1 ∧ p1 + sz1 ≤ p + sz) ∨ (L ≤ p1 ∧ p1 + sz1 ≤ L')) (a2 : (p ≤ p2 ∧ p2 + sz2 ≤ p + sz) ∨ (L ≤ p2 ∧ p2 + sz2 ≤ L'))
    (b1 : (L ≤ L1 ∧ L1' ≤ L') ∨ L1' ≤ L1) (b2 : (L ≤ L2 ∧ L2' ≤ L') ∨ L2' ≤ L2) : Frame base p sz L L' m m2 := by
  intro x hx hx'
  rw [h2 x (by omega) (by omega), h1 x (by omega) (by omega)]

theorem Frame.refl (base p sz L L' : Nat) (m : Mem) : Frame base p sz L L' m m := fun _ _ _ => rfl

/-- The effect of deserializing an object with parts `lv`. -/
def Good (e : SEnv) (d : DEnv) (base : Nat) (G : Option Nat → Pointee → Option Nat → Prop) (r : Res Mem) (lv : List (Nat × Leaf))
    (p sz L L' : Nat) (m : Mem) : Prop :=
  ∃ m', r = .ok m' ∧ (∀ l ∈ lv, Fm e d base G m' l) ∧ Frame base p sz L L' m m'

theorem chain_good {f : Nat → Mem → Res Mem} {R : Nat → Rel} {p sz : Nat → Nat} :
    ∀ (k i P T L L' : Nat) (lv : List (Nat × Leaf)) (pl : List Place) (m : Mem), P ≤ T → T ≤ L → L' ≤ N →
    (∀ j, i ≤ j → j < i + k → P ≤ p j ∧ p j + sz j ≤ T) →
    (∀ j j', i ≤ j → j < j' → j' < i + k → p j + sz j ≤ p j') →
    (∀ j, i ≤ j → j < i + k → ∀ M M' lv pl, p j + sz j ≤ M → R j M M' lv pl →
      M ≤ M' ∧ (∀ l ∈ lv, Within (p j) (sz j) M M' l.1 l.2.width) ∧
      (M' ≤ N → ∀ m, (∀ l ∈ lv, Fw e base G m l) → Good e d base G (f j m) lv (p j) (sz j) M M' m)) →
    ChainFrom R i k L L' lv pl → (∀ l ∈ lv, Fw e base G m l) →
    L ≤ L' ∧ (∀ l ∈ lv, Within P (T - P) L L' l.1 l.2.width) ∧ Good e d base G (forFrom f i k m) lv P (T - P) L L' m
  | 0, i, P, T, L, L', lv, pl, m, _, _, _, _, _, _, hc, _ => by
    obtain ⟨rfl, rfl, rfl⟩ := hc
    exact ⟨Nat.le_refl _, (fun _ h => by simp at h), m, rfl, (fun _ h => by simp at h), Frame.refl _ _ _ _ _ _⟩
  | k + 1, i, P, T, L, L', lv, pl, m, hPT, hTL, hN, hb, ho, hf, hc, hw => by
    obtain ⟨M, lv1, lv2, pl1, pl2, h1, h2, rfl, rfl⟩ := hc
    have hbi := hb i (Nat.le_refl _) (by omega)
    obtain ⟨g1, g2, g3⟩ := hf i (Nat.le_refl _) (by omega) L M lv1 pl1 (by omega) h1
    -- geometry of the rest, independent of the memory
    have rest : ∀ m, (∀ l ∈ lv2, Fw e base G m l) → M ≤ L' ∧ (∀ l ∈ lv2, Within (p i + sz i) (T - (p i + sz i)) M L' l.1 l.2.width) ∧
        Good e d base G (forFrom f (i + 1) k m) lv2 (p i + sz i) (T - (p i + sz i)) M L' m := fun m hm =>
      chain_good k (i + 1) (p i + sz i) T M L' lv2 pl2 m hbi.2 (by omega) hN
        (fun j hj hk => ⟨ho i j (Nat.le_refl _) (by omega) (by omega), (hb j (by omega) (by omega)).2⟩)
        (fun j j' a1 a2 a3 => ho j j' (by omega) a2 (by omega)) (fun j hj hk => hf j (by omega) (by omega)) h2 hm
    obtain ⟨r1, r2, -⟩ := rest m fun l hl => hw l (List.mem_append_right _ hl)
    obtain ⟨m1, e1, f1, x1⟩ := g3 (by omega) m fun l hl => hw l (List.mem_append_left _ hl)
    obtain ⟨-, -, m2, e2, f2, x2⟩ := rest m1 fun l hl => by
      have hh := r2 l hl
      unfold Within at hh
      exact (hw l (List.mem_append_right _ hl)).congr (x1.rd (by omega) (by omega))
    refine ⟨by omega, fun l hl => ?_, m2, by rw [forFrom_succ, e1, ok_bind, e2], fun l hl => ?_, ?_⟩
    · rcases List.mem_append.1 hl with hl | hl
      · exact (g2 l hl).up (by omega) (by omega) (by omega)
      · exact (r2 l hl).up (by omega) (by omega) (by omega)
    · rcases List.mem_append.1 hl with hl | hl
      · have hh := g2 l hl
        unfold Within at hh
        exact (f1 l hl).congr (x2.rd (by omega) (by omega))
      · exact f2 l hl
    · exact x1.trans x2 (by omega) (by omega) (by omega) (by omega)

/-- Header work followed by an inner object. -/
theorem Good.after {r : Res Mem} {lv1 lv2 : List (Nat × Leaf)} {p sz L L' p' sz' M M' : Nat} {m m1 : Mem}
    (f1 : ∀ l ∈ lv1, Fm e d base G m1 l ∧ (l.1 + l.2.width ≤ p' ∨ p' + sz' ≤ l.1) ∧ (l.1 + l.2.width ≤ M ∨ M' ≤ l.1))
    (x1 : Frame base p sz 0 0 m m1) (hg : Good e d base G r lv2 p' sz' M M' m1)
    (h1 : (p ≤ p' ∧ p' + sz' ≤ p + sz) ∨ (L ≤ p' ∧ p' + sz' ≤ L')) (h2 : L ≤ M ∧ M' ≤ L') : Good e d base G r (lv1 ++ lv2) p sz L L' m := by
  obtain ⟨m2, e2, f2, x2⟩ := hg
  refine ⟨m2, e2, fun l hl => ?_, x1.trans x2 (by omega) (by omega) (by omega) (by omega)⟩
  rcases List.mem_append.1 hl with hl | hl
  · obtain ⟨g1, g2, g3⟩ := f1 l hl
    exact g1.congr (x2.rd g2 g3)
  · exact f2 l hl

/-! ## Passing the checks -/

theorem checkAddr_pass (hk : Linked e d base N) {x n al : Nat} (h1 : d.lo ≤ x) (h2 : x + n ≤ d.hi) (h3 : al = 0 ∨ x % al = 0) :
    checkAddr d (x : Int) n al = .ok () := by
  have hlo := hk.lo
  have hhi := hk.hi
  unfold checkAddr
  split
  · rfl
  · rw [if_neg (by omega), show decide ((d.lo : Int) ≤ x) = true from decide_eq_true (by omega), verify_true, ok_bind,
      toS64_of_lt (by omega), add64 (by omega) (by omega), if_pos (by omega), ok_bind,
      show decide ((x : Int) + n ≤ d.hi) = true from decide_eq_true (by omega), verify_true, ok_bind,
      show decide (n < 2 ^ 63 - 1) = true from decide_eq_true (by omega), verify_true, ok_bind,
      show decide (al = 0 ∨ (x : Int) % al = 0) = true from decide_eq_true (by
        rcases h3 with h3 | h3
        · exact Or.inl h3
        · right; rw [← Int.natCast_emod, h3]; rfl)]
    rfl

theorem checkAddr_zero (d : DEnv) (n al : Nat) : checkAddr d 0 n al = .ok () := by
  unfold checkAddr
  split <;> rfl

theorem toU64_small {x : Nat} (h : x < 2 ^ 63) : toU64 (x : Int) = x := toU64_ofNat (by omega)

theorem rd_raw {h : Endian} {m : Mem} {a x : Nat} (hx : x < 2 ^ 63) (hb : rd m a 8 = encI h (x : Int)) : rdN h m a 8 = x := by
  unfold rdN
  rw [hb]
  unfold encI
  rw [ofHost_hostBytes (toU64_lt _), toU64_small hx]

theorem offTo_range {q y : Nat} (hq : q < 2 ^ 63) (hy : y < 2 ^ 63) : -(2 ^ 63) ≤ offTo q (some y) ∧ offTo q (some y) < 2 ^ 63 ∧
    offTo q (some y) ≠ NULLO := by
  unfold offTo
  rw [NULLO_eq]
  dsimp only
  omega

theorem offTo_none_range (q : Nat) : -(2 ^ 63) ≤ offTo q none ∧ offTo q none < 2 ^ 63 := by
  unfold offTo
  rw [NULLO_eq]
  dsimp only
  omega

theorem loadPtr_bytes (hk : Linked e d base N) {q : Nat} {tg : Option Nat} {m : Mem} (hb : InB d (base + q) 8 8)
    (ht : ∀ y, tg = some y → y ≤ N) (h : rd m (base + q) 8 = ptrBytes d base q tg) : loadPtr d m (base + q) = .ok (addrOf base tg) := by
  have hlo := hk.lo
  have hhi := hk.hi
  have hfit := hk.fits
  have hbase := hk.start
  have hb2 := hb.2.1
  unfold loadPtr
  rw [ld_ok hb, ok_bind, h]
  unfold ptrBytes
  cases hr : d.raw with
  | true =>
    rw [if_pos rfl, if_pos rfl]
    cases tg with
    | none => rw [decI_encI (by dsimp only; omega)]; rfl
    | some y =>
      have := ht y rfl
      rw [decI_encI (by dsimp only; omega)]
      rfl
  | false =>
    simp only [Bool.false_eq_true, if_false]
    cases tg with
    | none => rw [decI_encI (offTo_none_range q), if_pos (by rfl)]; rfl
    | some y =>
      have := ht y rfl
      obtain ⟨r1, r2, r3⟩ := offTo_range (q := q) (y := y) (by omega) (by omega)
      rw [decI_encI ⟨r1, r2⟩, if_neg r3, if_pos (by unfold offTo; dsimp only; omega)]
      unfold offTo addrOf
      dsimp only
      congr 1
      omega

theorem ptrAt_bytes (hk : Linked e d base N) {q : Nat} {tg : Option Nat} {m : Mem} (hq : base + q + 8 ≤ d.hi)
    (ht : ∀ y, tg = some y → y ≤ N) (h : rd m (base + q) 8 = ptrBytes d base q tg) :
    ptrAt d.host d.raw m (base + q) = tg.map (base + ·) := by
  have hlo := hk.lo
  have hhi := hk.hi
  have hfit := hk.fits
  have hbase := hk.start
  unfold ptrAt
  unfold ptrBytes at h
  cases hr : d.raw with
  | true =>
    rw [if_pos rfl]
    rw [hr, if_pos rfl] at h
    cases tg with
    | none =>
      have := rd_raw (x := 0) (by omega) (by simpa using h)
      rw [if_pos this]
      rfl
    | some y =>
      have := ht y rfl
      have := rd_raw (x := base + y) (by omega) h
      rw [if_neg (by omega), this]
      rfl
  | false =>
    rw [hr, if_neg (by decide)] at h
    rw [if_neg (by decide), h]
    cases tg with
    | none => rw [decI_encI (offTo_none_range q), if_pos (by rfl)]; rfl
    | some y =>
      have := ht y rfl
      obtain ⟨r1, r2, r3⟩ := offTo_range (q := q) (y := y) (by omega) (by omega)
      rw [decI_encI ⟨r1, r2⟩, if_neg r3, if_neg (by unfold offTo; dsimp only; omega)]
      unfold offTo
      simp only [Option.map_some]
      congr 1
      omega

theorem checkPtrAt_pass (hk : Linked e d base N) {q : Nat} {tg : Option Nat} {m : Mem} {size al : Nat} (hb : InB d (base + q) 8 8)
    (ht : ∀ y, tg = some y → y + size ≤ N ∧ (al = 0 ∨ (base + y) % al = 0)) (h : rd m (base + q) 8 = ptrBytes d base q tg) :
    checkPtrAt d m (base + q) size al = .ok () := by
  have hlo := hk.lo
  have hhi := hk.hi
  have hfit := hk.fits
  have hbase := hk.start
  have hb2 := hb.2.1
  have hl := loadPtr_bytes hk hb (fun y hy => by have := (ht y hy).1; omega) h
  have hc : checkAddr d (addrOf base tg) size al = .ok () := by
    cases tg with
    | none => exact checkAddr_zero _ _ _
    | some y =>
      have := ht y rfl
      exact checkAddr_pass hk (by omega) (by omega) this.2
  unfold checkPtrAt
  cases hr : d.raw with
  | true => rw [if_pos rfl, hl, ok_bind, hc]
  | false =>
    have hbs : rd m (base + q) 8 = encI d.host (offTo q tg) := by
      rw [h]; unfold ptrBytes; rw [hr, if_neg (by decide)]
    have hdec : decI d.host (rd m (base + q) 8) = offTo q tg := by
      rw [hbs, decI_encI]
      cases tg with
      | none => exact offTo_none_range q
      | some y =>
        have := (ht y rfl).1
        obtain ⟨r1, r2, r3⟩ := offTo_range (q := q) (y := y) (by omega) (by omega)
        exact ⟨r1, r2⟩
    rw [if_neg (by decide)]
    have hadd : ∀ y, tg = some y → Arith.checkedAddition i64 (offTo q tg) [((base + q : Nat) : Int)] = .ok ((base + y : Nat) : Int) := by
      intro y hy
      subst hy
      have := (ht y rfl).1
      obtain ⟨r1, r2, r3⟩ := offTo_range (q := q) (y := y) (by omega) (by omega)
      rw [add64 ⟨r1, r2⟩ (by omega), if_pos (by unfold offTo; dsimp only; omega)]
      unfold offTo
      dsimp only
      congr 1
      omega
    split
    · rw [ld_ok hb, ok_bind, hdec]
      cases tg with
      | none => rw [if_pos (by rfl)]
      | some y =>
        have := (ht y rfl).1
        obtain ⟨r1, r2, r3⟩ := offTo_range (q := q) (y := y) (by omega) (by omega)
        rw [if_neg r3, hadd y rfl, ok_bind, hl, ok_bind, hc]
    · rw [hl, ok_bind]
      cases tg with
      | none => rw [if_pos (by rfl)]
      | some y =>
        rw [if_neg (by unfold addrOf; dsimp only; omega), ld_ok hb, ok_bind, hdec, hadd y rfl, ok_bind, ok_bind, hc]

theorem convInt_pass (hk : Linked e d base N) {m : Mem} {q w : Nat} {bs : List Byte} (hw : bs.length = w) (hb : InB d (base + q) w w)
    (h : rd m (base + q) w = cv e.conv bs) :
    ∃ m', convInt d (base + q) w m = .ok m' ∧ Frame base q w 0 0 m m' ∧ rd m' (base + q) w = cv (cross e d) bs := by
  obtain ⟨m', h1, _, h2, h3⟩ := convInt_ok (m := m) hb
  exact ⟨m', h1, fun x hx _ => h2 x hx, by rw [h3, h, hk.cv]⟩

theorem convPtr_pass (hk : Linked e d base N) {m : Mem} {q : Nat} {tg : Option Nat} (hb : InB d (base + q) 8 8)
    (ht : ∀ y, tg = some y → y ≤ N) (h : rd m (base + q) 8 = cv e.conv (encI e.host (offTo q tg))) :
    ∃ m', convPtr d (base + q) m = .ok m' ∧ Frame base q 8 0 0 m m' ∧ rd m' (base + q) 8 = ptrBytes d base q tg := by
  have hlo := hk.lo
  have hhi := hk.hi
  have hfit := hk.fits
  have hbase := hk.start
  have hb2 := hb.2.1
  unfold convPtr ptrBytes
  cases hr : d.raw with
  | false =>
    rw [if_neg (by decide), if_neg (by decide)]
    obtain ⟨m', h1, h2, h3⟩ := convInt_pass hk (length_encI _ _) hb h
    exact ⟨m', h1, h2, by rw [h3, cross_encI]⟩
  | true =>
    rw [if_pos rfl, if_pos rfl, ld_ok hb, ok_bind, h, hk.cv, cross_encI]
    have hst : ∀ v, st d m (base + q) 8 (encI d.host v) = .ok (wr m (base + q) (encI d.host v)) := fun v => st_ok (by simpa using hb)
    have hfr : ∀ v, Frame base q 8 0 0 m (wr m (base + q) (encI d.host v)) := fun v x hx _ => wr_out (by simpa using hx)
    cases tg with
    | none =>
      rw [decI_encI (offTo_none_range q), if_pos (by rfl), hst]
      exact ⟨_, rfl, hfr _, rd_wr_same' _ _ _ _ (by simp)⟩
    | some y =>
      have := ht y rfl
      obtain ⟨r1, r2, r3⟩ := offTo_range (q := q) (y := y) (by omega) (by omega)
      rw [decI_encI ⟨r1, r2⟩, if_neg r3, add64 (by omega) ⟨r1, r2⟩, if_pos (by unfold offTo; dsimp only; omega), ok_bind, hst]
      refine ⟨_, rfl, hfr _, ?_⟩
      rw [rd_wr_same' _ _ _ _ (by simp)]
      congr 1
      unfold offTo
      dsimp only
      omega

theorem deserPtr_pass (hk : Linked e d base N) {m : Mem} {q : Nat} {tg : Option Nat} {size al : Nat} (hb : InB d (base + q) 8 8)
    (ht : ∀ y, tg = some y → y ≤ N ∧ (d.unchecked = false → y + size ≤ N ∧ (al = 0 ∨ (base + y) % al = 0)))
    (h : rd m (base + q) 8 = cv e.conv (encI e.host (offTo q tg))) :
    ∃ m', deserPtr d size al (base + q) m = .ok m' ∧ Frame base q 8 0 0 m m' ∧ rd m' (base + q) 8 = ptrBytes d base q tg := by
  obtain ⟨m', h1, h2, h3⟩ := convPtr_pass hk hb (fun y hy => (ht y hy).1) h
  refine ⟨m', ?_, h2, h3⟩
  unfold deserPtr
  rw [checkAddr_pass hk hb.1 hb.2.1 (Or.inr hb.2.2), ok_bind, h1, ok_bind]
  split
  · rfl
  · rename_i hu
    have hu' : d.unchecked = false := by
      cases hc : d.unchecked
      · rfl
      · rw [hc] at hu; exact absurd rfl hu
    rw [checkPtrAt_pass hk hb (fun y hy => (ht y hy).2 hu') h3, ok_bind]

theorem ldN_pass {m : Mem} {a w : Nat} (h : InB d a w w) : ldN d m a w = .ok (rdN d.host m a w) := by
  unfold ldN
  rw [ld_ok h, ok_bind]
  rfl

theorem checkBool_pass {m : Mem} {a : Nat} (h : InB d a 1 1) (hv : m a = 0#8 ∨ m a = 1#8) : checkBool d m a = .ok () := by
  unfold checkBool
  rw [ldN_pass h, ok_bind, rdN_one]
  rcases hv with hv | hv <;> rw [hv] <;> rfl

theorem checkNotOwned_pass {m : Mem} {a : Nat} (h : InB d a 1 1) (hv : m a = 0#8) : checkNotOwned d m a = .ok () := by
  unfold checkNotOwned
  rw [checkBool_pass h (Or.inl hv), ok_bind, ldN_pass h, ok_bind, rdN_one, hv]
  rfl

theorem byte_of_rd {m : Mem} {a : Nat} {b : Byte} (h : rd m a 1 = [b]) : m a = b := by
  rw [rd_one] at h
  injection h

end Cista.Ser

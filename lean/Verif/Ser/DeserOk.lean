import Verif.Ser.Read

/-!
# Deserialization of a layout
-/
set_option linter.unusedSimpArgs false
set_option linter.unusedSectionVars false

namespace Cista.Ser

/-- `M` is a multiple of every alignment in the type. -/
def Ty.Al (M : Nat) : Ty → Prop
  | .int w => w ∣ M
  | .blob _ al => al ∣ M
  | .ptr _ => 8 ∣ M
  | .vec _ _ t => 8 ∣ M ∧ t.Al M
  | .str => 8 ∣ M
  | .uptr t => 8 ∣ M ∧ t.Al M
  | .hash t => 8 ∣ M ∧ t.Al M
  | .opt t => t.Al M
  | .var _ _ _ al _ t => al ∣ M ∧ ∀ i, (t i).Al M
  | .arr _ t => t.Al M
  | .idx t => t.Al M
  | .agg _ al _ _ t => al ∣ M ∧ ∀ i, (t i).Al M

/-- Variants have one byte indices, or the reader does not convert byte order. -/
def Ty.IdxOk (conv : Bool) : Ty → Prop
  | .vec _ _ t => t.IdxOk conv
  | .uptr t => t.IdxOk conv
  | .hash t => t.IdxOk conv
  | .opt t => t.IdxOk conv
  | .var ib _ _ _ _ t => (ib = 1 ∨ conv = false) ∧ ∀ i, (t i).IdxOk conv
  | .arr _ t => t.IdxOk conv
  | .idx t => t.IdxOk conv
  | .agg _ _ _ _ t => ∀ i, (t i).IdxOk conv
  | .int _ => True
  | .blob _ _ => True
  | .ptr _ => True
  | .str => True

theorem Ty.Al.dvd {M : Nat} : ∀ {t : Ty}, t.Al M → t.alignof ∣ M := by
  intro t
  induction t with
  | int w => exact fun h => h
  | blob s al => exact fun h => h
  | ptr p => exact fun h => h
  | vec sw ix t _ => exact fun h => h.1
  | str => exact fun h => h
  | uptr t _ => exact fun h => h.1
  | hash t _ => exact fun h => h.1
  | opt t ih => exact fun h => ih h
  | var ib so s al n t _ => exact fun h => h.1
  | arr n t ih => exact fun h => ih h
  | idx t ih => exact fun h => ih h
  | agg s al n off t _ => exact fun h => h.1

variable {e : SEnv} {d : DEnv} {base N : Nat} {G : Option Nat → Pointee → Option Nat → Prop}

theorem inB_of (hk : Linked e d base N) {q n al : Nat} (h1 : q + n ≤ N) (h2 : al ∣ base) (h3 : al ∣ q) : InB d (base + q) n al := by
  have := hk.start
  have := hk.fits
  exact ⟨by omega, by omega, Nat.mod_eq_zero_of_dvd (Nat.dvd_add h2 h3)⟩

/-- The header of a vector. -/
theorem vecHeader_good (hk : Linked e d base N) {sw a p : Nat} {s : Option Nat} {m : Mem} {size al : Nat} (hsw : sw = 4 ∨ sw = 8)
    (hp : p + (16 + 2 * sw) ≤ N) (h8b : 8 ∣ base) (h8 : 8 ∣ p) (hfw : ∀ l ∈ vecLeaves e sw a p s, Fw e base G m l)
    (hal : al ∣ base) (hs : ∀ y, s = some y → y + rdN e.host e.mem (a + 8) sw * size ≤ N ∧ al ∣ y)
    (hsz : size ≤ N) (hn : s = none ↔ rdN e.host e.mem (a + 8) sw = 0) :
    ∃ m1 m2 m3, deserPtr d size al (base + p) m = .ok m1 ∧ convInt d (base + p + 8 + sw) sw m1 = .ok m2 ∧
      convInt d (base + p + 8) sw m2 = .ok m3 ∧ chk d.unchecked (checkVec d sw size al (base + p) m3) = .ok () ∧
      loadPtr d m3 (base + p) = .ok (addrOf base s) ∧ ldN d m3 (base + p + 8) sw = .ok (rdN e.host e.mem (a + 8) sw) ∧
      (∀ l ∈ vecLeaves e sw a p s, Fm e d base G m3 l) ∧ Frame base p (16 + 2 * sw) 0 0 m m3 := by
  have hlo := hk.lo
  have hhi := hk.hi
  have hfit := hk.fits
  have hbase := hk.start
  have hsd : sw ∣ 8 := by rcases hsw with h | h <;> subst h <;> decide
  have hs0 : 0 < sw := by omega
  have b0 : InB d (base + p) 8 8 := inB_of hk (by omega) h8b h8
  have b1 : InB d (base + (p + 8 + sw)) sw sw := inB_of hk (by omega) (Nat.dvd_trans hsd h8b)
    (Nat.dvd_add (Nat.dvd_add (Nat.dvd_trans hsd h8) hsd) (Nat.dvd_refl _))
  have b2 : InB d (base + (p + 8)) sw sw := inB_of hk (by omega) (Nat.dvd_trans hsd h8b) (Nat.dvd_add (Nat.dvd_trans hsd h8) hsd)
  have b3 : InB d (base + (p + 8 + 2 * sw)) 1 1 := inB_of hk (by omega) (Nat.one_dvd _) (Nat.one_dvd _)
  have w0 : rd m (base + p) 8 = cv e.conv (encI e.host (offTo p s)) := hfw (p, .own s) (by simp [vecLeaves])
  have w1 : rd m (base + (p + 8 + sw)) sw = cv e.conv (rd e.mem (a + 8) sw) := by
    have := hfw (p + 8 + sw, .int (rd e.mem (a + 8) sw)) (by simp [vecLeaves])
    simpa only [Fw, length_rd] using this
  have w2 : rd m (base + (p + 8)) sw = cv e.conv (rd e.mem (a + 8) sw) := by
    have := hfw (p + 8, .int (rd e.mem (a + 8) sw)) (by simp [vecLeaves])
    simpa only [Fw, length_rd] using this
  have w3 : rd m (base + (p + 8 + 2 * sw)) 1 = [0#8] := hfw (p + 8 + 2 * sw, .raw [0#8]) (by simp [vecLeaves])
  have hnn : ∀ y, s = some y → 1 * size ≤ rdN e.host e.mem (a + 8) sw * size := fun y hy =>
    Nat.mul_le_mul_right _ (Nat.pos_of_ne_zero (fun h => by rw [hn.2 h] at hy; cases hy))
  have hsal : ∀ y, s = some y → (base + y) % al = 0 := fun y hy => Nat.mod_eq_zero_of_dvd (Nat.dvd_add hal (hs y hy).2)
  obtain ⟨m1, e1, x1, r1⟩ := deserPtr_pass hk (size := size) (al := al) b0
    (fun y hy => ⟨by have := hs y hy; omega, fun _ => ⟨by have := hs y hy; have := hnn y hy; omega, Or.inr (hsal y hy)⟩⟩) w0
  obtain ⟨m2, e2, x2, r2⟩ := convInt_pass hk (m := m1) (length_rd e.mem (a + 8) sw) b1 (by rw [x1.rd (by omega) (by omega), w1])
  obtain ⟨m3, e3, x3, r3⟩ := convInt_pass hk (m := m2) (length_rd e.mem (a + 8) sw) b2
    (by rw [x2.rd (by omega) (by omega), x1.rd (by omega) (by omega), w2])
  have q0 : rd m3 (base + p) 8 = ptrBytes d base p s := by rw [x3.rd (by omega) (by omega), x2.rd (by omega) (by omega), r1]
  have q1 : rd m3 (base + (p + 8 + sw)) sw = cv (cross e d) (rd e.mem (a + 8) sw) := by rw [x3.rd (by omega) (by omega), r2]
  have q3 : rd m3 (base + (p + 8 + 2 * sw)) 1 = [0#8] := by
    rw [x3.rd (by omega) (by omega), x2.rd (by omega) (by omega), x1.rd (by omega) (by omega), w3]
  have hld : loadPtr d m3 (base + p) = .ok (addrOf base s) := loadPtr_bytes hk b0 (fun y hy => by have := hs y hy; omega) q0
  have n1 : rdN d.host m3 (base + (p + 8 + sw)) sw = rdN e.host e.mem (a + 8) sw := by
    unfold rdN; rw [q1, ofHost_cross]
  have n2 : rdN d.host m3 (base + (p + 8)) sw = rdN e.host e.mem (a + 8) sw := by
    unfold rdN; rw [r3, ofHost_cross]
  have a1 : base + p + 8 + sw = base + (p + 8 + sw) := by omega
  have a2 : base + p + 8 = base + (p + 8) := by omega
  have a3 : base + p + 8 + 2 * sw = base + (p + 8 + 2 * sw) := by omega
  have l2 : ldN d m3 (base + p + 8) sw = .ok (rdN e.host e.mem (a + 8) sw) := by rw [a2, ldN_pass b2, n2]
  refine ⟨m1, m2, m3, e1, by rw [a1]; exact e2, by rw [a2]; exact e3, ?_, hld, l2, fun l hl => ?_, ?_⟩
  · unfold chk
    split
    · rfl
    · have hlt : rdN e.host e.mem (a + 8) sw < 2 ^ 64 := by
        have := rdN_lt e.host e.mem (a + 8) sw
        have : 256 ^ sw ≤ 2 ^ 64 := by rcases hsw with h | h <;> subst h <;> decide
        omega
      have hmul : rdN e.host e.mem (a + 8) sw * size < 2 ^ 64 := by
        cases hss : s with
        | none => rw [hn.1 hss, Nat.zero_mul]; decide
        | some y => have := hs y hss; omega
      unfold checkVec
      rw [a1, ldN_pass b1, ok_bind, n1, mul64 hlt (by omega), if_pos hmul, ok_bind, Int.toNat_natCast,
        checkPtrAt_pass hk b0 (fun y hy => ⟨(hs y hy).1, Or.inr (hsal y hy)⟩) q0, ok_bind, a3,
        checkNotOwned_pass b3 (byte_of_rd q3), ok_bind, l2, ok_bind,
        show decide (rdN e.host e.mem (a + 8) sw = rdN e.host e.mem (a + 8) sw) = true from decide_eq_true rfl, verify_true, ok_bind,
        hld, ok_bind]
      have : (rdN e.host e.mem (a + 8) sw = 0 ↔ addrOf base s = 0) := by
        rw [← hn]
        cases s with
        | none => exact ⟨fun _ => rfl, fun _ => rfl⟩
        | some y =>
          constructor
          · intro h; cases h
          · intro h; unfold addrOf at h; dsimp only at h; omega
      rw [show decide (rdN e.host e.mem (a + 8) sw = 0 ↔ addrOf base s = 0) = true from decide_eq_true this]
      rfl
  · simp only [vecLeaves, List.mem_cons, List.not_mem_nil, or_false] at hl
    rcases hl with rfl | rfl | rfl | rfl
    · exact q0
    · show rd m3 _ (rd e.mem (a + 8) sw).length = _
      rw [length_rd]; exact q1
    · show rd m3 _ (rd e.mem (a + 8) sw).length = _
      rw [length_rd]; exact r3
    · exact q3
  · intro x hx _
    rw [x3 x (by omega) (by omega), x2 x (by omega) (by omega), x1 x (by omega) (by omega)]

/-- A long string. -/
theorem strHeader_good (hk : Linked e d base N) {a p : Nat} {s : Option Nat} {m : Mem}
    (hp : p + 16 ≤ N) (h8b : 8 ∣ base) (h8 : 8 ∣ p) (hfw : ∀ l ∈ strLeaves e a p s, Fw e base G m l)
    (hs : ∀ y, s = some y → y + rdN e.host e.mem (a + 4) 4 ≤ N) (hn : s = none ↔ rdN e.host e.mem (a + 4) 4 = 0) :
    ∃ m3, convStr d (base + p) m = .ok m3 ∧ chk d.unchecked (checkStr d (base + p) m3) = .ok () ∧
      (∀ l ∈ strLeaves e a p s, Fm e d base G m3 l) ∧ Frame base p 16 0 0 m m3 := by
  have hlo := hk.lo
  have hhi := hk.hi
  have hfit := hk.fits
  have hbase := hk.start
  have b0 : InB d (base + p) 1 1 := inB_of hk (by omega) (Nat.one_dvd _) (Nat.one_dvd _)
  have b1 : InB d (base + (p + 8)) 8 8 := inB_of hk (by omega) h8b (Nat.dvd_add h8 (Nat.dvd_refl _))
  have b2 : InB d (base + (p + 4)) 4 4 := inB_of hk (by omega) (Nat.dvd_trans (by decide) h8b)
    (Nat.dvd_add (Nat.dvd_trans (by decide) h8) (Nat.dvd_refl _))
  have b3 : InB d (base + (p + 1)) 1 1 := inB_of hk (by omega) (Nat.one_dvd _) (Nat.one_dvd _)
  have w0 : rd m (base + p) 1 = [0#8] := hfw (p, .raw [0#8]) (by simp [strLeaves])
  have w1 : rd m (base + (p + 8)) 8 = cv e.conv (encI e.host (offTo (p + 8) s)) := hfw (p + 8, .own s) (by simp [strLeaves])
  have w2 : rd m (base + (p + 4)) 4 = cv e.conv (rd e.mem (a + 4) 4) := by
    have := hfw (p + 4, .int (rd e.mem (a + 4) 4)) (by simp [strLeaves])
    simpa only [Fw, length_rd] using this
  have w3 : rd m (base + (p + 1)) 1 = [0#8] := hfw (p + 1, .raw [0#8]) (by simp [strLeaves])
  have hnn : ∀ y, s = some y → 1 ≤ rdN e.host e.mem (a + 4) 4 := fun y hy =>
    Nat.pos_of_ne_zero (fun h => by rw [hn.2 h] at hy; cases hy)
  obtain ⟨m1, e1, x1, r1⟩ := deserPtr_pass hk (size := 1) (al := 1) b1
    (fun y hy => ⟨by have := hs y hy; omega, fun _ => ⟨by have := hs y hy; have := hnn y hy; omega, Or.inr (Nat.mod_one _)⟩⟩) w1
  obtain ⟨m3, e3, x3, r3⟩ := convInt_pass hk (m := m1) (length_rd e.mem (a + 4) 4) b2 (by rw [x1.rd (by omega) (by omega), w2])
  have q0 : rd m3 (base + p) 1 = [0#8] := by rw [x3.rd (by omega) (by omega), x1.rd (by omega) (by omega), w0]
  have q1 : rd m3 (base + (p + 8)) 8 = ptrBytes d base (p + 8) s := by rw [x3.rd (by omega) (by omega), r1]
  have q3 : rd m3 (base + (p + 1)) 1 = [0#8] := by rw [x3.rd (by omega) (by omega), x1.rd (by omega) (by omega), w3]
  have hld : loadPtr d m3 (base + (p + 8)) = .ok (addrOf base s) := loadPtr_bytes hk b1 (fun y hy => by have := hs y hy; omega) q1
  have n2 : rdN d.host m3 (base + (p + 4)) 4 = rdN e.host e.mem (a + 4) 4 := by
    unfold rdN; rw [r3, ofHost_cross]
  have a1 : base + p + 8 = base + (p + 8) := by omega
  have a2 : base + p + 4 = base + (p + 4) := by omega
  have a3 : base + p + 1 = base + (p + 1) := by omega
  refine ⟨m3, ?_, ?_, fun l hl => ?_, ?_⟩
  · unfold convStr
    rw [ldN_pass b0, ok_bind, rdN_one, byte_of_rd w0, if_pos (by rfl), a1, e1, ok_bind, a2, e3]
  · unfold chk
    split
    · rfl
    · unfold checkStr
      rw [checkBool_pass b0 (Or.inl (byte_of_rd q0)), ok_bind, ldN_pass b0, ok_bind, rdN_one, byte_of_rd q0, if_pos (by rfl), a2,
        ldN_pass b2, ok_bind, n2, a1, checkPtrAt_pass hk b1 (fun y hy => ⟨hs y hy, Or.inr (Nat.mod_one _)⟩) q1, ok_bind, a3,
        checkNotOwned_pass b3 (byte_of_rd q3), ok_bind, hld, ok_bind]
      have : (rdN e.host e.mem (a + 4) 4 = 0 ↔ addrOf base s = 0) := by
        rw [← hn]
        cases s with
        | none => exact ⟨fun _ => rfl, fun _ => rfl⟩
        | some y =>
          constructor
          · intro h; cases h
          · intro h; unfold addrOf at h; dsimp only at h; omega
      rw [show decide (rdN e.host e.mem (a + 4) 4 = 0 ↔ addrOf base s = 0) = true from decide_eq_true this]
      rfl
  · simp only [strLeaves, List.mem_cons, List.not_mem_nil, or_false] at hl
    rcases hl with rfl | rfl | rfl | rfl
    · exact q0
    · exact q1
    · show rd m3 _ (rd e.mem (a + 4) 4).length = _
      rw [length_rd]; exact r3
    · exact q3
  · intro x hx _
    rw [x3 x (by omega) (by omega), x1 x (by omega) (by omega)]

theorem mulU {n size : Nat} (h : n * size < 2 ^ 64) (h0 : 0 < size) :
    Arith.checkedMultiplication u64 (n : Int) [(size : Int)] = .ok ((n * size : Nat) : Int) := by
  by_cases hn : n = 0
  · subst hn
    have : Arith.checkedMultiplication u64 ((0 : Nat) : Int) [(size : Int)] =
      (Arith.multiplyIfOk u64 0 (size : Int) >>= fun r => .ok r) := rfl
    rw [this]
    have : Arith.multiplyIfOk u64 0 (size : Int) = .ok 0 := by
      unfold Arith.multiplyIfOk
      rw [if_neg (fun h => h.1 rfl), Int.zero_mul]
      decide
    rw [this, Nat.zero_mul]; rfl
  · have h1 : size ≤ n * size := Nat.le_mul_of_pos_left _ (Nat.pos_of_ne_zero hn)
    have h2 : n ≤ n * size := Nat.le_mul_of_pos_right _ h0
    rw [mul64 (by omega) (by omega), if_pos h]

/-- The header of a hash table. -/
theorem hashHeader_good (hk : Linked e d base N) {a p ctrl n : Nat} {s : Option Nat} {m : Mem} {size al : Nat}
    (hp : p + 48 ≤ ctrl) (h8b : 8 ∣ base) (h8 : 8 ∣ p) (hfw : ∀ l ∈ hashLeaves e a p s ctrl, Fw e base G m l)
    (hal : al ∣ base) (hsz : 0 < size) (hn : rdN e.host e.mem (a + 24) 8 = n) (hc : ctrl + (n + 9) ≤ N)
    (hs : ∀ y, s = some y → 0 < n ∧ ctrl = y + n * size ∧ al ∣ y) (h0 : s = none → n = 0 ∧ rdN e.host e.mem (a + 16) 8 = 0)
    (ht : HTable (ctl m (base + ctrl) (n + 9)) n (rdN e.host e.mem (a + 16) 8) (rdN e.host e.mem (a + 32) 8)) :
    ∃ m1 m2 m3 m4 m5, deserPtr d size al (base + p) m = .ok m1 ∧ deserPtr d 1 1 (base + p + 8) m1 = .ok m2 ∧
      convInt d (base + p + 16) 8 m2 = .ok m3 ∧ convInt d (base + p + 24) 8 m3 = .ok m4 ∧ convInt d (base + p + 32) 8 m4 = .ok m5 ∧
      chk d.unchecked (checkHash d size al (base + p) m5) = .ok () ∧
      loadPtr d m5 (base + p + 8) = .ok ((base + ctrl : Nat) : Int) ∧ loadPtr d m5 (base + p) = .ok (addrOf base s) ∧
      ldN d m5 (base + p + 24) 8 = .ok n ∧
      (∀ l ∈ hashLeaves e a p s ctrl, Fm e d base G m5 l) ∧ Frame base p 48 0 0 m m5 := by
  have hlo := hk.lo
  have hhi := hk.hi
  have hfit := hk.fits
  have hbase := hk.start
  have b0 : InB d (base + p) 8 8 := inB_of hk (by omega) h8b h8
  have b8 : InB d (base + (p + 8)) 8 8 := inB_of hk (by omega) h8b (Nat.dvd_add h8 (by decide))
  have b16 : InB d (base + (p + 16)) 8 8 := inB_of hk (by omega) h8b (Nat.dvd_add h8 (by decide))
  have b24 : InB d (base + (p + 24)) 8 8 := inB_of hk (by omega) h8b (Nat.dvd_add h8 (by decide))
  have b32 : InB d (base + (p + 32)) 8 8 := inB_of hk (by omega) h8b (Nat.dvd_add h8 (by decide))
  have b40 : InB d (base + (p + 40)) 1 1 := inB_of hk (by omega) (Nat.one_dvd _) (Nat.one_dvd _)
  have bc : InB d (base + ctrl) (n + 9) 1 := inB_of hk (by omega) (Nat.one_dvd _) (Nat.one_dvd _)
  have w0 : rd m (base + p) 8 = cv e.conv (encI e.host (offTo p s)) := hfw (p, .own s) (by simp [hashLeaves])
  have w8 : rd m (base + (p + 8)) 8 = cv e.conv (encI e.host (offTo (p + 8) (some ctrl))) :=
    hfw (p + 8, .own (some ctrl)) (by simp [hashLeaves])
  have w16 : rd m (base + (p + 16)) 8 = cv e.conv (rd e.mem (a + 16) 8) := by
    have := hfw (p + 16, .int (rd e.mem (a + 16) 8)) (by simp [hashLeaves])
    simpa only [Fw, length_rd] using this
  have w24 : rd m (base + (p + 24)) 8 = cv e.conv (rd e.mem (a + 24) 8) := by
    have := hfw (p + 24, .int (rd e.mem (a + 24) 8)) (by simp [hashLeaves])
    simpa only [Fw, length_rd] using this
  have w32 : rd m (base + (p + 32)) 8 = cv e.conv (rd e.mem (a + 32) 8) := by
    have := hfw (p + 32, .int (rd e.mem (a + 32) 8)) (by simp [hashLeaves])
    simpa only [Fw, length_rd] using this
  have w40 : rd m (base + (p + 40)) 1 = [0#8] := hfw (p + 40, .raw [0#8]) (by simp [hashLeaves])
  have hsal : ∀ y, s = some y → (base + y) % al = 0 := fun y hy => Nat.mod_eq_zero_of_dvd (Nat.dvd_add hal (hs y hy).2.2)
  have hss : ∀ y, s = some y → y + size ≤ ctrl := fun y hy => by
    have h1 := hs y hy
    have h2 := Nat.mul_le_mul_right size (show 1 ≤ n from h1.1)
    omega
  obtain ⟨m1, e1, x1, r1⟩ := deserPtr_pass hk (size := size) (al := al) b0
    (fun y hy => ⟨by have := hss y hy; omega, fun _ => ⟨by have := hss y hy; omega, Or.inr (hsal y hy)⟩⟩) w0
  obtain ⟨m2, e2, x2, r2⟩ := deserPtr_pass hk (m := m1) (size := 1) (al := 1) (tg := some ctrl) b8
    (fun y hy => by injection hy with hy; subst hy; exact ⟨by omega, fun _ => ⟨by omega, Or.inr (Nat.mod_one _)⟩⟩)
    (by rw [x1.rd (by omega) (by omega), w8])
  obtain ⟨m3, e3, x3, r3⟩ := convInt_pass hk (m := m2) (length_rd e.mem (a + 16) 8) b16
    (by rw [x2.rd (by omega) (by omega), x1.rd (by omega) (by omega), w16])
  obtain ⟨m4, e4, x4, r4⟩ := convInt_pass hk (m := m3) (length_rd e.mem (a + 24) 8) b24
    (by rw [x3.rd (by omega) (by omega), x2.rd (by omega) (by omega), x1.rd (by omega) (by omega), w24])
  obtain ⟨m5, e5, x5, r5⟩ := convInt_pass hk (m := m4) (length_rd e.mem (a + 32) 8) b32
    (by rw [x4.rd (by omega) (by omega), x3.rd (by omega) (by omega), x2.rd (by omega) (by omega), x1.rd (by omega) (by omega), w32])
  have fr : Frame base p 48 0 0 m m5 := by
    intro x hx _
    rw [x5 x (by omega) (by omega), x4 x (by omega) (by omega), x3 x (by omega) (by omega), x2 x (by omega) (by omega), x1 x (by omega) (by omega)]
  have q0 : rd m5 (base + p) 8 = ptrBytes d base p s := by
    rw [x5.rd (by omega) (by omega), x4.rd (by omega) (by omega), x3.rd (by omega) (by omega), x2.rd (by omega) (by omega), r1]
  have q8 : rd m5 (base + (p + 8)) 8 = ptrBytes d base (p + 8) (some ctrl) := by
    rw [x5.rd (by omega) (by omega), x4.rd (by omega) (by omega), x3.rd (by omega) (by omega), r2]
  have q16 : rd m5 (base + (p + 16)) 8 = cv (cross e d) (rd e.mem (a + 16) 8) := by
    rw [x5.rd (by omega) (by omega), x4.rd (by omega) (by omega), r3]
  have q24 : rd m5 (base + (p + 24)) 8 = cv (cross e d) (rd e.mem (a + 24) 8) := by rw [x5.rd (by omega) (by omega), r4]
  have q40 : rd m5 (base + (p + 40)) 1 = [0#8] := by
    rw [x5.rd (by omega) (by omega), x4.rd (by omega) (by omega), x3.rd (by omega) (by omega), x2.rd (by omega) (by omega),
      x1.rd (by omega) (by omega), w40]
  have qc : rd m5 (base + ctrl) (n + 9) = rd m (base + ctrl) (n + 9) := fr.rd (by omega) (by omega)
  have l0 : loadPtr d m5 (base + p) = .ok (addrOf base s) := loadPtr_bytes hk b0 (fun y hy => by have := hss y hy; omega) q0
  have l8 : loadPtr d m5 (base + (p + 8)) = .ok ((base + ctrl : Nat) : Int) :=
    loadPtr_bytes hk b8 (fun y hy => by injection hy with hy; subst hy; omega) q8
  have n16 : rdN d.host m5 (base + (p + 16)) 8 = rdN e.host e.mem (a + 16) 8 := by unfold rdN; rw [q16, ofHost_cross]
  have n24 : rdN d.host m5 (base + (p + 24)) 8 = n := by rw [← hn]; unfold rdN; rw [q24, ofHost_cross]
  have n32 : rdN d.host m5 (base + (p + 32)) 8 = rdN e.host e.mem (a + 32) 8 := by unfold rdN; rw [r5, ofHost_cross]
  have a8 : base + p + 8 = base + (p + 8) := by omega
  have a16 : base + p + 16 = base + (p + 16) := by omega
  have a24 : base + p + 24 = base + (p + 24) := by omega
  have a32 : base + p + 32 = base + (p + 32) := by omega
  have a40 : base + p + 40 = base + (p + 40) := by omega
  refine ⟨m1, m2, m3, m4, m5, e1, by rw [a8]; exact e2, by rw [a16]; exact e3, by rw [a24]; exact e4, by rw [a32]; exact e5, ?_,
    by rw [a8]; exact l8, l0, by rw [a24, ldN_pass b24, n24], fun l hl => ?_, fr⟩
  · unfold chk
    split
    · rfl
    · have hmul : n * size + (n + 9) < 2 ^ 64 := by
        cases hc : s with
        | none => rw [(h0 hc).1, Nat.zero_mul]; decide
        | some y => have := (hs y hc).2.1; omega
      unfold checkHash
      rw [a8, a16, a24, a32, a40, l8, ok_bind, decide_eq_true (show ((base + ctrl : Nat) : Int) ≠ 0 by omega), verify_true, ok_bind,
        ldN_pass b24, ok_bind, n24, mulU (by omega) hsz, ok_bind, addU9 (by omega), if_pos (by omega), ok_bind,
        addU64 (by omega) (by omega), if_pos hmul, ok_bind, Int.toNat_natCast, Int.toNat_natCast,
        checkPtrAt_pass hk b0 (fun y hy => ⟨by have := (hs y hy).2.1; omega, Or.inr (hsal y hy)⟩) q0, ok_bind,
        checkPtrAt_pass hk b8 (fun y hy => by injection hy with hy; subst hy; exact ⟨by omega, Or.inr (Nat.mod_one _)⟩) q8, ok_bind,
        l0, ok_bind]
      have c1 : addrOf base s = 0 ∨ ((base + ctrl : Nat) : Int) = addrOf base s + ((n * size : Nat) : Int) := by
        cases hc : s with
        | none => exact Or.inl rfl
        | some y =>
          have := (hs y hc).2.1
          right
          unfold addrOf
          dsimp only
          omega
      have c2 : addrOf base s = 0 ↔ (n = 0 ∧ rdN e.host e.mem (a + 16) 8 = 0) := by
        cases hc : s with
        | none => exact ⟨fun _ => h0 hc, fun _ => rfl⟩
        | some y =>
          have := (hs y hc).1
          constructor
          · intro h; unfold addrOf at h; dsimp only at h; omega
          · intro h; omega
      rw [decide_eq_true c1, verify_true, ok_bind, ldN_pass b16, ok_bind, n16, decide_eq_true c2, verify_true, ok_bind,
        checkNotOwned_pass b40 (byte_of_rd q40), ok_bind, toAddr_ok (by omega), ok_bind, ld_ok bc, ok_bind, ldN_pass b32, ok_bind, n32, qc]
      refine checkState_table ht ?_
      rw [← c2]
      constructor
      · intro h
        exact Decidable.of_not_not (of_decide_eq_false h)
      · intro h
        exact decide_eq_false (fun h' => h' h)
  · simp only [hashLeaves, List.mem_cons, List.not_mem_nil, or_false] at hl
    rcases hl with rfl | rfl | rfl | rfl | rfl | rfl
    · exact q0
    · exact q8
    · exact q40
    · show rd m5 _ (rd e.mem (a + 16) 8).length = _
      rw [length_rd]; exact q16
    · show rd m5 _ (rd e.mem (a + 24) 8).length = _
      rw [length_rd]; exact q24
    · show rd m5 _ (rd e.mem (a + 32) 8).length = _
      rw [length_rd]; exact r5

theorem table_empty (growth : Nat) : HTable (emptyGroup.map BitVec.toNat |>.take 9) 0 0 growth := by
  refine ⟨⟨by decide, by decide, fun c hc => validByte_iff.1 ?_, fun i c h => absurd h (Nat.not_lt_zero _)⟩, by decide, fun g hg => ?_⟩
  · have : (emptyGroup.map BitVec.toNat |>.take 9).all HS.validByte = true := by decide
    exact List.all_eq_true.1 this c hc
  · injection hg with hg
    subst hg
    simp

/-- Deserialization accepts and converts what the serializer wrote. -/
theorem deser_good (hk : Linked e d base N)
    (hG : ∀ x pt tg, G x pt tg → ∀ y, tg = some y → y ≤ N ∧
      (d.unchecked = false → y + (pointee d pt).1 ≤ N ∧ ((pointee d pt).2 = 0 ∨ (base + y) % (pointee d pt).2 = 0))) :
    ∀ t : Ty, t.WF → t.Al base → t.IdxOk d.conv → ∀ a p L L' lv pl m, t.alignof ∣ p → p + t.sizeof ≤ L → L' ≤ N →
    Lay e t a p L L' lv pl → (∀ l ∈ lv, Fw e base G m l) → Good e d base G (deser d t (base + p) m) lv p t.sizeof L L' m := by
  have hlo := hk.lo
  have hhi := hk.hi
  have hfit := hk.fits
  have hbase := hk.start
  intro t
  induction t with
  | int w =>
    intro hw hM _ a p L L' lv pl m hal hp hN h hfw
    obtain ⟨rfl, rfl, rfl⟩ := h
    simp only [Ty.sizeof, Ty.alignof, Ty.Al] at hp hal hM ⊢
    have b := inB_of hk (q := p) (n := w) (al := w) (by omega) hM hal
    have hf : rd m (base + p) w = cv e.conv (rd e.mem a w) := by
      have := hfw _ (List.mem_singleton.2 rfl)
      simpa only [Fw, length_rd] using this
    obtain ⟨m', e1, x1, r1⟩ := convInt_pass hk (length_rd _ _ _) b hf
    refine ⟨m', ?_, fun l hl => ?_, fun x h1 h2 => x1 x (by omega) (by omega)⟩
    · unfold deser
      rw [checkAddr_pass hk b.1 b.2.1 (Or.inr b.2.2), ok_bind, e1]
    · rw [List.mem_singleton.1 hl]
      show rd m' _ (rd e.mem a w).length = _
      rw [length_rd]; exact r1
  | blob s al =>
    intro hw hM _ a p L L' lv pl m hal hp hN h hfw
    obtain ⟨rfl, rfl, rfl⟩ := h
    simp only [Ty.sizeof, Ty.alignof, Ty.Al] at hp hal hM ⊢
    have b := inB_of hk (q := p) (n := s) (al := al) (by omega) hM hal
    refine ⟨m, ?_, fun l hl => ?_, Frame.refl _ _ _ _ _ _⟩
    · unfold deser
      rw [checkAddr_pass hk b.1 b.2.1 (Or.inr b.2.2), ok_bind]
    · have := hfw l hl
      rw [List.mem_singleton.1 hl] at this ⊢
      exact this
  | ptr pt =>
    intro hw hM _ a p L L' lv pl m hal hp hN h hfw
    obtain ⟨rfl, rfl, rfl⟩ := h
    simp only [Ty.sizeof, Ty.alignof, Ty.Al] at hp hal hM ⊢
    have b := inB_of hk (q := p) (n := 8) (al := 8) (by omega) hM hal
    obtain ⟨tg, h1, h2⟩ := hfw _ (List.mem_singleton.2 rfl)
    obtain ⟨m', e1, x1, r1⟩ := deserPtr_pass hk (size := (pointee d pt).1) (al := (pointee d pt).2) b (hG _ _ _ h2) h1
    refine ⟨m', e1, fun l hl => ?_, fun x h1 h2 => x1 x (by omega) (by omega)⟩
    rw [List.mem_singleton.1 hl]
    exact ⟨tg, r1, h2⟩
  | vec sw ix t ih =>
    intro hw hM hix a p L L' lv pl m hal hp hN h hfw
    have htp := Ty.pos_of_WF (t := t) hw.2
    have hsw0 : 0 < sw := by rcases hw.1 with h | h <;> omega
    simp only [Ty.sizeof, Ty.alignof, Ty.Al, Ty.IdxOk] at hp hal hM hix ⊢
    obtain ⟨hM8, hM⟩ := hM
    unfold deser
    rcases h with ⟨h0, rfl, rfl, rfl⟩ | ⟨hn, el, s, lv', pl', hel, hs, hals, hc, rfl, rfl⟩
    · have b := inB_of hk (q := p) (n := 16 + 2 * sw) (al := 8) (by omega) hM8 hal
      rw [show (Ty.vec sw ix t).sizeof = 16 + 2 * sw from rfl, checkAddr_pass hk b.1 b.2.1 (Or.inr b.2.2), ok_bind]
      -- the element type may be larger than the buffer; the pointer is null
      have hfw0 := hfw
      have b0 : InB d (base + p) 8 8 := b.head (by omega) (Nat.dvd_refl _)
      have hsd : sw ∣ 8 := by rcases hw.1 with h | h <;> subst h <;> decide
      have w0 : rd m (base + p) 8 = cv e.conv (encI e.host (offTo p none)) := hfw (p, .own none) (by simp [vecLeaves])
      obtain ⟨m1, m2, m3, e1, e2, e3, e4, e5, e6, e7, e8⟩ : ∃ m1 m2 m3, deserPtr d t.sizeof t.alignof (base + p) m = .ok m1 ∧
          convInt d (base + p + 8 + sw) sw m1 = .ok m2 ∧ convInt d (base + p + 8) sw m2 = .ok m3 ∧
          chk d.unchecked (checkVec d sw t.sizeof t.alignof (base + p) m3) = .ok () ∧
          loadPtr d m3 (base + p) = .ok (addrOf base none) ∧ ldN d m3 (base + p + 8) sw = .ok (rdN e.host e.mem (a + 8) sw) ∧
          (∀ l ∈ vecLeaves e sw a p none, Fm e d base G m3 l) ∧ Frame base p (16 + 2 * sw) 0 0 m m3 := by
        obtain ⟨m1, m2, m3, e1, e2, e3, e4, e5, e6, e7, e8⟩ := vecHeader_good hk (size := 0) (al := 1) hw.1 (by omega) hM8 hal hfw
          (Nat.one_dvd _) (fun y hy => by cases hy) (Nat.zero_le _) ⟨fun _ => h0, fun _ => rfl⟩
        obtain ⟨m1', g1, g2, g3⟩ := deserPtr_pass hk (size := t.sizeof) (al := t.alignof) b0 (fun y hy => by cases hy) w0
        -- both conversions are the same
        have hsame : m1' = m1 := by
          unfold deserPtr at e1 g1
          rw [checkAddr_pass hk b0.1 b0.2.1 (Or.inr b0.2.2), ok_bind] at e1 g1
          obtain ⟨mc, hc1, hc2, hc3⟩ := convPtr_pass hk b0 (fun y hy => by cases hy) w0
          rw [hc1, ok_bind] at e1 g1
          have n1 := checkPtrAt_pass hk (size := t.sizeof) (al := t.alignof) b0 (fun y hy => by cases hy) hc3
          have n2 := checkPtrAt_pass hk (size := 0) (al := 1) b0 (fun y hy => by cases hy) hc3
          rw [n1, ok_bind] at g1
          rw [n2, ok_bind] at e1
          have k1 : (Except.ok m1' : Res Mem) = .ok mc := by rw [← g1]; split <;> rfl
          have k2 : (Except.ok m1 : Res Mem) = .ok mc := by rw [← e1]; split <;> rfl
          injection k1 with k1
          injection k2 with k2
          rw [k1, k2]
        subst hsame
        refine ⟨m1', m2, m3, g1, e2, e3, ?_, e5, e6, e7, e8⟩
        have b1 : InB d (base + (p + 8 + sw)) sw sw := inB_of hk (by omega) (Nat.dvd_trans hsd hM8)
          (Nat.dvd_add (Nat.dvd_add (Nat.dvd_trans hsd hal) hsd) (Nat.dvd_refl _))
        have b3 : InB d (base + (p + 8 + 2 * sw)) 1 1 := inB_of hk (by omega) (Nat.one_dvd _) (Nat.one_dvd _)
        have q0 : rd m3 (base + p) 8 = ptrBytes d base p none := e7 (p, .own none) (by simp [vecLeaves])
        have q1 : rdN d.host m3 (base + (p + 8 + sw)) sw = 0 := by
          have := e7 (p + 8 + sw, .int (rd e.mem (a + 8) sw)) (by simp [vecLeaves])
          simp only [Fm, length_rd] at this
          unfold rdN
          rw [this, ofHost_cross]
          exact h0
        have q3 : rd m3 (base + (p + 8 + 2 * sw)) 1 = [0#8] := e7 (p + 8 + 2 * sw, .raw [0#8]) (by simp [vecLeaves])
        have mul0 : Arith.checkedMultiplication u64 ((0 : Nat) : Int) [(t.sizeof : Int)] = .ok 0 := by
          have : Arith.checkedMultiplication u64 ((0 : Nat) : Int) [(t.sizeof : Int)] =
            (Arith.multiplyIfOk u64 0 (t.sizeof : Int) >>= fun r => .ok r) := rfl
          rw [this]
          have : Arith.multiplyIfOk u64 0 (t.sizeof : Int) = .ok 0 := by
            unfold Arith.multiplyIfOk
            rw [if_neg (fun h => h.1 rfl), Int.zero_mul]
            decide
          rw [this]; rfl
        unfold chk
        split
        · rfl
        · unfold checkVec
          rw [show base + p + 8 + sw = base + (p + 8 + sw) by omega, ldN_pass b1, ok_bind, q1, mul0, ok_bind,
            checkPtrAt_pass hk b0 (fun y hy => by cases hy) q0, ok_bind, show base + p + 8 + 2 * sw = base + (p + 8 + 2 * sw) by omega,
            checkNotOwned_pass b3 (byte_of_rd q3), ok_bind, e6, ok_bind, h0, show decide (0 = 0) = true from rfl, verify_true, ok_bind,
            e5, ok_bind]
          rfl
      rw [e1, ok_bind, e2, ok_bind, e3, ok_bind, e4, ok_bind, e5, ok_bind, e6, ok_bind, if_pos h0]
      exact ⟨m3, rfl, e7, fun x h1 _ => e8 x h1 (by omega)⟩
    · have hb : ∀ j, j < rdN e.host e.mem (a + 8) sw → j * t.sizeof + t.sizeof ≤ rdN e.host e.mem (a + 8) sw * t.sizeof :=
        fun j hj => mul_bound hj
      have hLs : s + rdN e.host e.mem (a + 8) sw * t.sizeof ≤ L' ∧ ∀ m, (∀ l ∈ lv', Fw e base G m l) →
          (∀ l ∈ lv', Within s (rdN e.host e.mem (a + 8) sw * t.sizeof) (s + rdN e.host e.mem (a + 8) sw * t.sizeof) L' l.1 l.2.width) ∧
          Good e d base G (forFrom (fun i m => deser d t (base + s + i * t.sizeof) m) 0 (rdN e.host e.mem (a + 8) sw) m) lv' s
            (rdN e.host e.mem (a + 8) sw * t.sizeof) (s + rdN e.host e.mem (a + 8) sw * t.sizeof) L' m := by
        have key : ∀ m, (∀ l ∈ lv', Fw e base G m l) → _ := fun m hm =>
          chain_good (e := e) (d := d) (base := base) (N := N) (G := G) (f := fun i m => deser d t (base + s + i * t.sizeof) m)
          (R := fun i => Lay e t (el + i * t.sizeof) (s + i * t.sizeof)) (p := fun i => s + i * t.sizeof) (sz := fun _ => t.sizeof)
          (rdN e.host e.mem (a + 8) sw) 0 s (s + rdN e.host e.mem (a + 8) sw * t.sizeof) _ L' lv' pl' m (by omega) (Nat.le_refl _) hN
          (fun j _ hj => by have := hb j (by omega); omega)
          (fun j j' _ h1 h2 => by have := mul_bound (s := t.sizeof) h1; omega)
          (fun j _ hj M M' lv pl hM1 hl => by
            have hdj : t.alignof ∣ s + j * t.sizeof := Nat.dvd_add hals (Nat.dvd_trans htp.2.2 (Nat.dvd_mul_left _ _))
            obtain ⟨g1, g2, _⟩ := Lay.geo t hw.2 _ _ M M' lv pl hdj hM1 hl
            refine ⟨g1, g2, fun hMN m hm => ?_⟩
            have := ih hw.2 hM hix _ _ M M' lv pl m hdj hM1 hMN hl hm
            rw [← Nat.add_assoc] at this
            exact this) hc hm
        refine ⟨?_, fun m hm => ?_⟩
        · obtain ⟨k1, k2, k3⟩ := key m fun l hl => hfw l (List.mem_append_right _ hl)
          exact k1
        · obtain ⟨k1, k2, k3⟩ := key m hm
          rw [show s + rdN e.host e.mem (a + 8) sw * t.sizeof - s = rdN e.host e.mem (a + 8) sw * t.sizeof by omega] at k2 k3
          exact ⟨k2, k3⟩
      obtain ⟨hLs, hchain⟩ := hLs
      have hfit0 := hb 0 hn
      have b := inB_of hk (q := p) (n := 16 + 2 * sw) (al := 8) (by omega) hM8 hal
      rw [show (Ty.vec sw ix t).sizeof = 16 + 2 * sw from rfl, checkAddr_pass hk b.1 b.2.1 (Or.inr b.2.2), ok_bind]
      obtain ⟨m1, m2, m3, e1, e2, e3, e4, e5, e6, e7, e8⟩ := vecHeader_good hk (size := t.sizeof) (al := t.alignof) (s := some s) (m := m) hw.1
        (by omega) hM8 hal (fun l hl => hfw l (List.mem_append_left _ hl)) hM.dvd
        (fun y hy => by injection hy with hy; subst hy; exact ⟨by omega, hals⟩) (by omega)
        ⟨(fun h => by cases h), fun h => by omega⟩
      rw [e1, ok_bind, e2, ok_bind, e3, ok_bind, e4, ok_bind, e5, ok_bind, e6, ok_bind, if_neg (by omega)]
      rw [show toAddr (addrOf base (some s)) = .ok (base + s) by
        unfold toAddr addrOf; dsimp only; rw [if_neg (by omega), Int.toNat_natCast], ok_bind]
      obtain ⟨hwi, -⟩ := hchain m fun l hl => hfw l (List.mem_append_right _ hl)
      have hg := (hchain m3 fun l hl => by
        have hh := hwi l hl
        unfold Within at hh
        exact (hfw l (List.mem_append_right _ hl)).congr (e8.rd (by omega) (by omega))).2
      refine Good.after (fun l hl => ?_) e8 hg (Or.inr ⟨hs, hLs⟩) ⟨by omega, Nat.le_refl _⟩
      have hv := vecLeaves_within (L := 0) (L' := 0) hl hsw0
      exact ⟨e7 l hl, by omega, by omega⟩
  | str =>
    intro hw hM hix a p L L' lv pl m hal hp hN h hfw
    simp only [Ty.sizeof, Ty.alignof, Ty.Al] at hp hal hM ⊢
    obtain ⟨rfl, h⟩ := h
    unfold deser
    have hLL : L ≤ L' := by rcases h with ⟨_, h, _⟩ | ⟨_, _, _, h, _⟩ | ⟨_, _, _, _, h, _⟩ <;> omega
    have b := inB_of hk (q := p) (n := 16) (al := 8) (by omega) hM hal
    have b0 := inB_of hk (q := p) (n := 1) (al := 1) (by omega) (Nat.one_dvd _) (Nat.one_dvd _)
    rw [checkAddr_pass hk b.1 b.2.1 (Or.inr b.2.2), ok_bind]
    rcases h with ⟨h1, rfl, rfl⟩ | ⟨h0, hz, hnull, rfl, rfl⟩ | ⟨h0, hz, x, hx, rfl, rfl⟩
    · have hf : rd m (base + p) 16 = rd e.mem a 16 := by
        have := hfw _ (List.mem_singleton.2 rfl)
        simpa only [Fw, length_rd] using this
      have hm1 : m (base + p) = 1#8 := by
        have := (rd_eq_iff.1 hf) 0 (by omega)
        simpa [h1] using this
      refine ⟨m, ?_, fun l hl => ?_, Frame.refl _ _ _ _ _ _⟩
      · have c1 : convStr d (base + p) m = .ok m := by
          unfold convStr
          rw [ldN_pass b0, ok_bind, rdN_one, hm1, if_neg (by decide)]
        have c2 : chk d.unchecked (checkStr d (base + p) m) = .ok () := by
          unfold chk
          split
          · rfl
          · unfold checkStr
            rw [checkBool_pass b0 (Or.inr hm1), ok_bind, ldN_pass b0, ok_bind, rdN_one, hm1, if_neg (by decide)]
        rw [c1, ok_bind, c2, ok_bind]
      · have := hfw l hl
        rw [List.mem_singleton.1 hl] at this ⊢
        exact this
    · obtain ⟨m3, e1, e2, e3, e4⟩ := strHeader_good hk (s := none) (m := m) (by omega) hM hal hfw (fun y hy => by cases hy)
        ⟨fun _ => hz, fun _ => rfl⟩
      rw [e1, ok_bind, e2, ok_bind]
      exact ⟨m3, rfl, e3, fun x h1 _ => e4 x h1 (by omega)⟩
    · obtain ⟨m3, e1, e2, e3, e4⟩ := strHeader_good hk (s := some L) (m := m) (by omega) hM hal
        (fun l hl => hfw l (List.mem_append_left _ hl)) (fun y hy => by injection hy with hy; subst hy; omega)
        ⟨(fun h => by cases h), fun h => by omega⟩
      rw [e1, ok_bind, e2, ok_bind]
      refine ⟨m3, rfl, fun l hl => ?_, fun x h1 _ => e4 x h1 (by omega)⟩
      rcases List.mem_append.1 hl with hl' | hl'
      · exact e3 l hl'
      · have hf := hfw l hl
        rw [List.mem_singleton.1 hl'] at hf ⊢
        have : rd m3 (base + L) (rd e.mem x (rdN e.host e.mem (a + 4) 4)).length = _ := e4.rd (m := m) (by omega) (by omega)
        exact this.trans hf
  | uptr t ih =>
    intro hw hM hix a p L L' lv pl m hal hp hN h hfw
    have htp := Ty.pos_of_WF (t := t) hw
    simp only [Ty.sizeof, Ty.alignof, Ty.Al, Ty.IdxOk] at hp hal hM hix ⊢
    obtain ⟨hM8, hM⟩ := hM
    unfold deser
    have hdr : ∀ s, L ≤ L' → (∀ l ∈ [(p, Leaf.own s), (p + 8, Leaf.raw [0#8])], Fw e base G m l) →
        (∀ y, s = some y → y + t.sizeof ≤ N ∧ t.alignof ∣ y) →
        ∃ m1, checkAddr d ((base + p : Nat) : Int) 16 8 = .ok () ∧ deserPtr d t.sizeof t.alignof (base + p) m = .ok m1 ∧
          chk d.unchecked (checkNotOwned d m1 (base + p + 8)) = .ok () ∧ loadPtr d m1 (base + p) = .ok (addrOf base s) ∧
          (∀ l ∈ [(p, Leaf.own s), (p + 8, Leaf.raw [0#8])], Fm e d base G m1 l) ∧ Frame base p 16 0 0 m m1 := by
      intro s hLL hf hs
      have b := inB_of hk (q := p) (n := 16) (al := 8) (by omega) hM8 hal
      have b0 : InB d (base + p) 8 8 := b.head (by omega) (Nat.dvd_refl _)
      have b1 := inB_of hk (q := p + 8) (n := 1) (al := 1) (by omega) (Nat.one_dvd _) (Nat.one_dvd _)
      have w0 : rd m (base + p) 8 = cv e.conv (encI e.host (offTo p s)) := hf (p, .own s) (by simp)
      have w1 : rd m (base + (p + 8)) 1 = [0#8] := hf (p + 8, .raw [0#8]) (by simp)
      obtain ⟨m1, e1, x1, r1⟩ := deserPtr_pass hk (size := t.sizeof) (al := t.alignof) b0
        (fun y hy => ⟨by have := hs y hy; omega, fun _ => ⟨(hs y hy).1, Or.inr (Nat.mod_eq_zero_of_dvd (Nat.dvd_add hM.dvd (hs y hy).2))⟩⟩) w0
      have r2 : rd m1 (base + (p + 8)) 1 = [0#8] := by rw [x1.rd (by omega) (by omega), w1]
      refine ⟨m1, checkAddr_pass hk b.1 b.2.1 (Or.inr b.2.2), e1, ?_, loadPtr_bytes hk b0 (fun y hy => by have := hs y hy; omega) r1,
        fun l hl => ?_, fun x h1 _ => x1 x (by omega) (by omega)⟩
      · unfold chk
        split
        · rfl
        · rw [show base + p + 8 = base + (p + 8) by omega, checkNotOwned_pass b1 (byte_of_rd r2)]
      · simp only [List.mem_cons, List.not_mem_nil, or_false] at hl
        rcases hl with rfl | rfl
        · exact r1
        · exact r2
    rcases h with ⟨hnull, rfl, rfl, rfl⟩ | ⟨el, s, lv', pl', hel, hs, hals, hc, rfl, rfl⟩
    · obtain ⟨m1, e0, e1, e2, e3, e4, e5⟩ := hdr none (Nat.le_refl _) hfw (fun y hy => by cases hy)
      rw [e0, ok_bind, e1, ok_bind, e2, ok_bind, e3, ok_bind, if_pos (by rfl)]
      exact ⟨m1, rfl, e4, fun x h1 _ => e5 x h1 (by omega)⟩
    · obtain ⟨g1, g2, _⟩ := Lay.geo t hw _ _ _ _ _ _ hals (Nat.le_refl _) hc
      obtain ⟨m1, e0, e1, e2, e3, e4, e5⟩ := hdr (some s) (by omega) (fun l hl => hfw l (List.mem_append_left _ hl))
        (fun y hy => by injection hy with hy; subst hy; exact ⟨by omega, hals⟩)
      rw [e0, ok_bind, e1, ok_bind, e2, ok_bind, e3, ok_bind, if_neg (by unfold addrOf; dsimp only; omega),
        show toAddr (addrOf base (some s)) = .ok (base + s) by
          unfold toAddr addrOf; dsimp only; rw [if_neg (by omega), Int.toNat_natCast], ok_bind]
      have hg := ih hw hM hix _ _ _ _ _ _ m1 hals (Nat.le_refl _) hN hc fun l hl => by
        have hh := g2 l hl
        unfold Within at hh
        exact (hfw l (List.mem_append_right _ hl)).congr (e5.rd (by omega) (by omega))
      refine Good.after (fun l hl => ⟨e4 l hl, ?_⟩) e5 hg (Or.inr ⟨hs, g1⟩) ⟨by omega, Nat.le_refl _⟩
      simp only [List.mem_cons, List.not_mem_nil, or_false] at hl
      rcases hl with rfl | rfl <;> simp only [Leaf.width, List.length_cons, List.length_nil] <;> omega
  | hash t ih =>
    intro hw hM hix a p L L' lv pl m hal hp hN h hfw
    have hw : t.WF := hw
    have htp := Ty.pos_of_WF (t := t) hw
    have hLL := (Lay.geo (.hash t) hw a p L L' lv pl hal hp h).1
    simp only [Ty.sizeof, Ty.alignof, Ty.Al, Ty.IdxOk] at hp hal hM hix ⊢
    obtain ⟨hM8, hM⟩ := hM
    unfold deser
    have b := inB_of hk (q := p) (n := 48) (al := 8) (by omega) hM8 hal
    rw [checkAddr_pass hk b.1 b.2.1 (Or.inr b.2.2), ok_bind]
    rcases h with ⟨hel, hcap, hsz, rfl, rfl, rfl⟩ | ⟨el, s, lv', hel, hct, hn, htab, hs, hals, hc, rfl⟩
    · have hg : rd m (base + L) 16 = emptyGroup := hfw (L, .raw emptyGroup) (by simp)
      have hg9 : ctl m (base + L) (0 + 9) = (emptyGroup.map BitVec.toNat).take 9 := by
        unfold ctl
        rw [← hg]
        rfl
      obtain ⟨m1, m2, m3, m4, m5, e1, e2, e3, e4, e5, e6, e7, e8, e9, f1, f2⟩ := hashHeader_good hk (s := none) (ctrl := L) (m := m)
        (size := t.sizeof) (al := t.alignof) (by omega) hM8 hal (fun l hl => hfw l (List.mem_append_left _ hl)) hM.dvd htp.2.1 hcap
        (by omega) (fun y hy => by cases hy) (fun _ => ⟨rfl, hsz⟩) (by rw [hg9, hsz]; exact table_empty _)
      have hcc : rd m5 (base + L) 16 = rd m (base + L) 16 := f2.rd (by omega) (by omega)
      have hc9 : ctl m5 (base + L) 9 = (emptyGroup.map BitVec.toNat).take 9 := by
        unfold ctl
        rw [← hg, ← hcc]
        rfl
      rw [e1, ok_bind, e2, ok_bind, e3, ok_bind, e4, ok_bind, e5, ok_bind, e6, ok_bind,
        hashFor_nil (mem := fun m => m) e7 (by omega) e8 e9 (by omega) (by omega) (by rw [hc9]; exact (table_empty 0).toCtrl)]
      refine ⟨m5, rfl, fun l hl => ?_, fun x h1 _ => f2 x h1 (by omega)⟩
      rcases List.mem_append.1 hl with hl' | hl'
      · exact f1 l hl'
      · rw [List.mem_singleton.1 hl']
        exact hcc.trans hg
    · generalize hnn : rdN e.host e.mem (a + 24) 8 = n at *
      generalize hC : el + n * t.sizeof = ct at *
      have hb : ∀ j, j < n → j * t.sizeof + t.sizeof ≤ n * t.sizeof := fun j hj => mul_bound hj
      have hctrl : rd m (base + (s + n * t.sizeof)) (n + 9) = rd e.mem ct (n + 9) := by
        have := hfw (s + n * t.sizeof, .raw (rd e.mem ct (n + 9))) (by simp)
        simpa only [Fw, length_rd] using this
      have hstep : ∀ j, j < n → ∀ M M' lv pl, s + j * t.sizeof + t.sizeof ≤ M →
          (Full e.mem ct j → Lay e t (el + j * t.sizeof) (s + j * t.sizeof) M M' lv pl) ∧ (¬ Full e.mem ct j → M' = M ∧ lv = [] ∧ pl = []) →
          M ≤ M' ∧ (∀ l ∈ lv, Within (s + j * t.sizeof) t.sizeof M M' l.1 l.2.width) ∧
          (M' ≤ N → ∀ m, (∀ l ∈ lv, Fw e base G m l) →
            Good e d base G (if Full e.mem ct j then deser d t (base + s + j * t.sizeof) m else .ok m) lv (s + j * t.sizeof) t.sizeof M M' m) := by
        intro j hj M M' lv pl hM1 hl
        have hdj : t.alignof ∣ s + j * t.sizeof := Nat.dvd_add hals (Nat.dvd_trans htp.2.2 (Nat.dvd_mul_left _ _))
        by_cases hf : Full e.mem ct j
        · have hl := hl.1 hf
          obtain ⟨g1, g2, _⟩ := Lay.geo t hw _ _ M M' lv pl hdj hM1 hl
          refine ⟨g1, g2, fun hMN m hm => ?_⟩
          have := ih hw hM hix _ _ M M' lv pl m hdj hM1 hMN hl hm
          rw [← Nat.add_assoc] at this
          rw [if_pos hf]
          exact this
        · obtain ⟨rfl, rfl, rfl⟩ := hl.2 hf
          refine ⟨Nat.le_refl _, fun l hl => by simp at hl, fun _ m _ => ?_⟩
          rw [if_neg hf]
          exact ⟨m, rfl, fun l hl => by simp at hl, Frame.refl _ _ _ _ _ _⟩
      have hgeo : ∀ i k M lv pl, i + k ≤ n → s + n * t.sizeof ≤ M → ChainFrom (fun i L L' lv pl =>
          (Full e.mem ct i → Lay e t (el + i * t.sizeof) (s + i * t.sizeof) L L' lv pl) ∧ (¬ Full e.mem ct i → L' = L ∧ lv = [] ∧ pl = []))
          i k M L' lv pl → M ≤ L' ∧ ∀ l ∈ lv, ∃ j M1 M1', i ≤ j ∧ j < i + k ∧ M ≤ M1 ∧ M1' ≤ L' ∧
            Within (s + j * t.sizeof) t.sizeof M1 M1' l.1 l.2.width := by
        intro i k M lv pl hik hM1 hch
        have := ChainFrom.geo (p := fun j => s + j * t.sizeof) (sz := fun _ => t.sizeof) k i M L' lv pl
          (fun j h1 h2 => by have := hb j (by omega); omega)
          (fun j h1 h2 M M' lv pl hM2 hl => by
            have hdj : t.alignof ∣ s + j * t.sizeof := Nat.dvd_add hals (Nat.dvd_trans htp.2.2 (Nat.dvd_mul_left _ _))
            by_cases hf : Full e.mem ct j
            · exact Lay.geo t hw _ _ M M' lv pl hdj hM2 (hl.1 hf)
            · obtain ⟨rfl, rfl, rfl⟩ := hl.2 hf
              exact ⟨Nat.le_refl _, fun l hl => by simp at hl, fun l hl => by simp at hl⟩) hch
        exact ⟨this.1, this.2.1⟩
      have hLs : s + (n * t.sizeof + (n + 9)) ≤ L' := (hgeo 0 n _ lv' pl (by omega) (by omega) hc).1
      obtain ⟨m1, m2, m3, m4, m5, e1, e2, e3, e4, e5, e6, e7, e8, e9, f1, f2⟩ := hashHeader_good hk (s := some s) (ctrl := s + n * t.sizeof)
        (m := m) (size := t.sizeof) (al := t.alignof) (by omega) hM8 hal (fun l hl => hfw l (List.mem_append_left _ hl)) hM.dvd htp.2.1 hnn
        (by omega) (fun y hy => by injection hy with hy; subst hy; exact ⟨hn, rfl, hals⟩) (fun h => by cases h)
        (by unfold ctl; rw [hctrl]; exact htab)
      have hc5 : rd m5 (base + (s + n * t.sizeof)) (n + 9) = rd e.mem ct (n + 9) := by rw [f2.rd (by omega) (by omega), hctrl]
      have hfull : ∀ j, j < n → (Full m5 (base + (s + n * t.sizeof)) j ↔ Full e.mem ct j) := by
        intro j hj
        unfold Full
        rw [rd_eq_iff.1 hc5 j (by omega)]
      have hw5 : ∀ l ∈ lv', Fw e base G m5 l := fun l hl => by
        obtain ⟨j, M1, M1', g1, g2, g3, g4, g5⟩ := (hgeo 0 n _ lv' pl (by omega) (by omega) hc).2 l hl
        unfold Within at g5
        have := hb j (by omega)
        exact (hfw l (List.mem_append_right _ (List.mem_cons_of_mem _ hl))).congr (f2.rd (by omega) (by omega))
      rw [e1, ok_bind, e2, ok_bind, e3, ok_bind, e4, ok_bind, e5, ok_bind, e6, ok_bind]
      rw [hashFor_eq (mem := fun m => m) (el := base + s) (c := base + (s + n * t.sizeof)) (cap := n)
        (P := fun j m1 => rd m1 (base + (s + n * t.sizeof)) (n + 9) = rd m5 (base + (s + n * t.sizeof)) (n + 9) ∧
          ∃ M lv2 pl2, s + (n * t.sizeof + (n + 9)) ≤ M ∧ ChainFrom (fun i L L' lv pl =>
            (Full e.mem ct i → Lay e t (el + i * t.sizeof) (s + i * t.sizeof) L L' lv pl) ∧ (¬ Full e.mem ct i → L' = L ∧ lv = [] ∧ pl = []))
            j (n - j) M L' lv2 pl2 ∧ ∀ l ∈ lv2, Fw e base G m1 l)
        e7 (by omega) e8 (by omega) e9 (by omega) (by omega) (by unfold ctl; rw [hc5]; exact htab.toCtrl)
        (fun j m1 hP => hP.1)
        (fun j m1 m2 hj hP hf hbody => by
          obtain ⟨hP1, M, lv2, pl2, hM1, hch, hfw2⟩ := hP
          rw [show n - j = (n - (j + 1)) + 1 by omega] at hch
          obtain ⟨M2, lv3, lv4, pl3, pl4, c1, c2, rfl, rfl⟩ := hch
          have hbj := hb j hj
          obtain ⟨k1, k2, k3⟩ := hstep j hj M M2 lv3 pl3 (by omega) c1
          obtain ⟨k4, k5⟩ := hgeo (j + 1) (n - (j + 1)) M2 lv4 pl4 (by omega) (by omega) c2
          obtain ⟨m3, k6, k7, k8⟩ := k3 (by omega) m1 (fun l hl => hfw2 l (List.mem_append_left _ hl))
          rw [if_pos ((hfull j hj).1 hf)] at k6
          have : (Except.ok m2 : Res Mem) = .ok m3 := by rw [← k6]; exact hbody.symm
          injection this with this
          subst this
          refine ⟨by rw [k8.rd (by omega) (by omega)]; exact hP1, M2, lv4, pl4, by omega, c2, fun l hl => ?_⟩
          obtain ⟨j', M1, M1', g1, g2, g3, g4, g5⟩ := k5 l hl
          unfold Within at g5
          have h1 := mul_bound (s := t.sizeof) (show j < j' by omega)
          have h2 := hb j' (by omega)
          exact (hfw2 l (List.mem_append_right _ hl)).congr (k8.rd (by omega) (by omega)))
        (fun j m1 hj hP hf => by
          obtain ⟨hP1, M, lv2, pl2, hM1, hch, hfw2⟩ := hP
          rw [show n - j = (n - (j + 1)) + 1 by omega] at hch
          obtain ⟨M2, lv3, lv4, pl3, pl4, c1, c2, rfl, rfl⟩ := hch
          obtain ⟨rfl, rfl, rfl⟩ := c1.2 (fun h => hf ((hfull j hj).2 h))
          exact ⟨hP1, M2, lv4, pl4, hM1, c2, hfw2⟩)
        ⟨rfl, _, lv', pl, Nat.le_refl _, hc, hw5⟩]
      have hcongr : ∀ k i m1, i + k ≤ n →
          forFrom (fun j s1 => if Full m5 (base + (s + n * t.sizeof)) j then deser d t (base + s + j * t.sizeof) s1 else .ok s1) i k m1 =
          forFrom (fun j s1 => if Full e.mem ct j then deser d t (base + s + j * t.sizeof) s1 else .ok s1) i k m1 := by
        intro k
        induction k with
        | zero => intro i m1 _; rfl
        | succ k ihk =>
          intro i m1 hik
          rw [forFrom_succ, forFrom_succ]
          have : (if Full m5 (base + (s + n * t.sizeof)) i then deser d t (base + s + i * t.sizeof) m1 else .ok m1) =
              if Full e.mem ct i then deser d t (base + s + i * t.sizeof) m1 else .ok m1 := by
            by_cases hf : Full e.mem ct i
            · rw [if_pos hf, if_pos ((hfull i (by omega)).2 hf)]
            · rw [if_neg hf, if_neg (fun h => hf ((hfull i (by omega)).1 h))]
          rw [this]
          congr 1
          funext m2
          exact ihk (i + 1) m2 (by omega)
      rw [hcongr n 0 m5 (by omega)]
      have hg := (chain_good (e := e) (d := d) (base := base) (N := N) (G := G)
        (f := fun j m => if Full e.mem ct j then deser d t (base + s + j * t.sizeof) m else .ok m)
        (p := fun i => s + i * t.sizeof) (sz := fun _ => t.sizeof) n 0 s (s + n * t.sizeof) _ L' lv' pl m5 (by omega) (by omega) hN
        (fun j _ hj => by have := hb j (by omega); omega)
        (fun j j' _ h1 h2 => by have := mul_bound (s := t.sizeof) h1; omega)
        (fun j _ hj M M' lv pl hM1 hl => hstep j (by omega) M M' lv pl hM1 hl) hc hw5).2.2
      have hl1 : hashLeaves e a p (some s) (s + n * t.sizeof) ++ (s + n * t.sizeof, .raw (rd e.mem ct (n + 9))) :: lv' =
          (hashLeaves e a p (some s) (s + n * t.sizeof) ++ [(s + n * t.sizeof, .raw (rd e.mem ct (n + 9)))]) ++ lv' := by simp
      rw [show s + n * t.sizeof - s = n * t.sizeof by omega] at hg
      rw [hl1]
      refine Good.after (fun l hl => ?_) f2 hg (Or.inr ⟨hs, by omega⟩) ⟨by omega, Nat.le_refl _⟩
      rcases List.mem_append.1 hl with hl | hl
      · have hv := hashLeaves_within (L := 0) (L' := 0) hl
        have hv2 := hv.2.1
        exact ⟨f1 l hl, by omega, by omega⟩
      · rw [List.mem_singleton.1 hl]
        refine ⟨?_, ?_⟩
        · show rd m5 _ (rd e.mem ct (n + 9)).length = _
          rw [length_rd]; exact hc5
        · simp only [Leaf.width, length_rd]
          omega
  | opt t ih =>
    intro hw hM hix a p L L' lv pl m hal hp hN h hfw
    have htp := Ty.pos_of_WF (t := t) hw
    have hgeo := Lay.geo (.opt t) hw a p L L' lv pl hal hp h
    have hMd := Ty.Al.dvd (t := t) hM
    simp only [Ty.sizeof, Ty.alignof, Ty.Al, Ty.IdxOk] at hp hal hM hix ⊢
    unfold deser
    have b := inB_of hk (q := p) (n := t.alignof + t.sizeof) (al := t.alignof) (by omega) hMd hal
    have b0 := inB_of hk (q := p) (n := 1) (al := 1) (by omega) (Nat.one_dvd _) (Nat.one_dvd _)
    rw [show (Ty.opt t).sizeof = t.alignof + t.sizeof from rfl, show (Ty.opt t).alignof = t.alignof from rfl,
      checkAddr_pass hk b.1 b.2.1 (Or.inr b.2.2), ok_bind]
    have hbool : m (base + p) = 0#8 ∨ m (base + p) = 1#8 → chk d.unchecked (checkBool d m (base + p)) = .ok () := by
      intro h
      unfold chk
      split
      · rfl
      · exact checkBool_pass b0 h
    rcases h with ⟨h0, rfl, rfl, rfl⟩ | ⟨h1, lv', hc, rfl⟩
    · have hf : rd m (base + p) 1 = [0#8] := hfw _ (List.mem_singleton.2 rfl)
      rw [hbool (Or.inl (byte_of_rd hf)), ok_bind, ldN_pass b0, ok_bind, rdN_one, byte_of_rd hf, if_pos (by rfl)]
      refine ⟨m, rfl, fun l hl => ?_, Frame.refl _ _ _ _ _ _⟩
      rw [List.mem_singleton.1 hl]
      exact hf
    · have hf : rd m (base + p) 1 = [1#8] := hfw (p, .raw [1#8]) List.mem_cons_self
      rw [hbool (Or.inr (byte_of_rd hf)), ok_bind, ldN_pass b0, ok_bind, rdN_one, byte_of_rd hf, if_neg (by decide)]
      have hg := ih hw hM hix _ _ _ _ _ _ m (Nat.dvd_add hal (Nat.dvd_refl _)) (by omega) hN hc
        fun l hl => hfw l (List.mem_cons_of_mem _ hl)
      rw [← Nat.add_assoc] at hg
      refine Good.after (lv1 := [(p, .raw [1#8])]) (fun l hl => ?_) (Frame.refl _ _ _ _ _ _) hg (Or.inl ⟨by omega, by omega⟩)
        ⟨Nat.le_refl _, Nat.le_refl _⟩
      rw [List.mem_singleton.1 hl]
      refine ⟨hf, ?_⟩
      simp only [Leaf.width, List.length_cons, List.length_nil]
      omega
  | var ib so s al n t ih =>
    intro hw hM hix a p L L' lv pl m hal hp hN h hfw
    have hgeo := Lay.geo (.var ib so s al n t) hw a p L L' lv pl hal hp h
    simp only [Ty.WF] at hw
    obtain ⟨hib, hn, hso, hal', hdv, hia, hso', hs0, hti⟩ := hw
    simp only [Ty.sizeof, Ty.alignof, Ty.Al, Ty.IdxOk] at hp hal hM hix ⊢
    obtain ⟨i, lv', hi, hc, rfl⟩ := h
    unfold deser
    have b := inB_of hk (q := p) (n := s) (al := al) (by omega) hM.1 hal
    have b0 := inB_of hk (q := p) (n := ib) (al := ib) (by omega) (Nat.dvd_trans hia hM.1) (Nat.dvd_trans hia hal)
    rw [checkAddr_pass hk b.1 b.2.1 (Or.inr b.2.2), ok_bind]
    have hf : rd m (base + p) ib = cv e.conv (rd e.mem a ib) := by
      have := hfw (p, .int (rd e.mem a ib)) List.mem_cons_self
      simpa only [Fw, length_rd] using this
    have hf' : rd m (base + p) ib = cv (cross e d) (rd e.mem a ib) := by
      rw [hf]
      rcases hix.1 with h1 | h1
      · subst h1
        rw [rd_one]
        unfold Ser.cv
        simp
      · rw [← hk.cv, h1]
        rfl
    have hidx : rdN d.host m (base + p) ib = i.1 := by
      unfold rdN
      rw [hf', ofHost_cross]
      exact hi
    have hchk : chk d.unchecked (verify (decide (i.1 < n))) = .ok () := by
      unfold chk
      split
      · rfl
      · rw [show decide (i.1 < n) = true from decide_eq_true i.2]; rfl
    rw [ldN_pass b0, ok_bind, hidx, hchk, ok_bind, dif_pos i.2]
    have ht := hti i
    have hg := ih i ht.1 (hM.2 i) (hix.2 i) _ _ _ _ _ _ m (Nat.dvd_add (Nat.dvd_trans ht.2.2.2 hal) ht.2.2.1) (by omega) hN hc
      fun l hl => hfw l (List.mem_cons_of_mem _ hl)
    rw [← Nat.add_assoc] at hg
    refine Good.after (lv1 := [(p, .int (rd e.mem a ib))]) (fun l hl => ?_) (Frame.refl _ _ _ _ _ _) hg (Or.inl ⟨by omega, by omega⟩)
      ⟨Nat.le_refl _, Nat.le_refl _⟩
    rw [List.mem_singleton.1 hl]
    refine ⟨?_, ?_⟩
    · show rd m _ (rd e.mem a ib).length = _
      rw [length_rd]; exact hf'
    · simp only [Leaf.width, length_rd]
      omega
  | arr n t ih =>
    intro hw hM hix a p L L' lv pl m hal hp hN h hfw
    have htp := Ty.pos_of_WF (t := t) hw.2
    have hgeo := Lay.geo (.arr n t) hw a p L L' lv pl hal hp h
    have hMd := Ty.Al.dvd (t := t) hM
    simp only [Ty.sizeof, Ty.alignof, Ty.Al, Ty.IdxOk] at hp hal hM hix ⊢
    unfold deser
    have b := inB_of hk (q := p) (n := n * t.sizeof) (al := t.alignof) (by omega) hMd hal
    rw [show (Ty.arr n t).sizeof = n * t.sizeof from rfl, checkAddr_pass hk b.1 b.2.1 (Or.inr b.2.2), ok_bind]
    have hb : ∀ j, j < n → j * t.sizeof + t.sizeof ≤ n * t.sizeof := fun j hj => mul_bound hj
    obtain ⟨k1, k2, k3⟩ := chain_good (e := e) (d := d) (base := base) (N := N) (G := G) (f := fun i m => deser d t (base + p + i * t.sizeof) m)
      (R := fun i => Lay e t (a + i * t.sizeof) (p + i * t.sizeof)) (p := fun i => p + i * t.sizeof) (sz := fun _ => t.sizeof)
      n 0 p (p + n * t.sizeof) L L' lv pl m (by omega) (by omega) hN
      (fun j _ hj => by have := hb j (by omega); omega)
      (fun j j' _ h1 h2 => by have := mul_bound (s := t.sizeof) h1; omega)
      (fun j _ hj M M' lv pl hM1 hl => by
        have hdj : t.alignof ∣ p + j * t.sizeof := Nat.dvd_add hal (Nat.dvd_trans htp.2.2 (Nat.dvd_mul_left _ _))
        obtain ⟨g1, g2, _⟩ := Lay.geo t hw.2 _ _ M M' lv pl hdj hM1 hl
        refine ⟨g1, g2, fun hMN m hm => ?_⟩
        have := ih hw.2 hM hix _ _ M M' lv pl m hdj hM1 hMN hl hm
        rw [← Nat.add_assoc] at this
        exact this) h hfw
    rw [show p + n * t.sizeof - p = n * t.sizeof by omega] at k3
    exact k3
  | idx t ih =>
    intro hw hM hix a p L L' lv pl m hal hp hN h hfw
    have hgeo := Lay.geo (.idx t) hw a p L L' lv pl hal hp h
    have hMd := Ty.Al.dvd (t := t) hM
    obtain ⟨pl', hc, rfl⟩ := h
    simp only [Ty.sizeof, Ty.alignof, Ty.Al, Ty.IdxOk] at hp hal hM hix ⊢
    unfold deser
    have b := inB_of hk (q := p) (n := t.sizeof) (al := t.alignof) (by omega) hMd hal
    rw [checkAddr_pass hk b.1 b.2.1 (Or.inr b.2.2), ok_bind]
    exact ih hw hM hix _ _ _ _ _ _ m hal hp hN hc hfw
  | agg s al n off t ih =>
    intro hw hM hix a p L L' lv pl m hal hp hN h hfw
    have hgeo := Lay.geo (.agg s al n off t) hw a p L L' lv pl hal hp h
    simp only [Ty.WF] at hw
    obtain ⟨hs0, hal', hdv, hti, hord⟩ := hw
    simp only [Ty.sizeof, Ty.alignof, Ty.Al, Ty.IdxOk] at hp hal hM hix ⊢
    unfold deser
    have b := inB_of hk (q := p) (n := s) (al := al) (by omega) hM.1 hal
    rw [checkAddr_pass hk b.1 b.2.1 (Or.inr b.2.2), ok_bind]
    obtain ⟨k1, k2, k3⟩ := chain_good (e := e) (d := d) (base := base) (N := N) (G := G)
      (f := fun i m => if h : i < n then deser d (t ⟨i, h⟩) (base + p + off ⟨i, h⟩) m else .ok m)
      (R := fun i L L' lv pl => ∃ h : i < n, Lay e (t ⟨i, h⟩) (a + off ⟨i, h⟩) (p + off ⟨i, h⟩) L L' lv pl)
      (p := fun j => if h : j < n then p + off ⟨j, h⟩ else p) (sz := fun j => if h : j < n then (t ⟨j, h⟩).sizeof else 0)
      n 0 p (p + s) L L' lv pl m (by omega) (by omega) hN
      (fun j _ hj => by
        have hjn : j < n := by omega
        simp only [dif_pos hjn]
        have := (hti ⟨j, hjn⟩).2.1
        omega)
      (fun j j' _ h1 h2 => by
        have hjn : j < n := by omega
        have hjn' : j' < n := by omega
        simp only [dif_pos hjn, dif_pos hjn']
        have := hord ⟨j, hjn⟩ ⟨j', hjn'⟩ h1
        omega)
      (fun j _ hj M M' lv pl hM1 hl => by
        obtain ⟨hjn, hl⟩ := hl
        simp only [dif_pos hjn] at hM1 ⊢
        have ht := hti ⟨j, hjn⟩
        have hdj : (t ⟨j, hjn⟩).alignof ∣ p + off ⟨j, hjn⟩ := Nat.dvd_add (Nat.dvd_trans ht.2.2.2 hal) ht.2.2.1
        obtain ⟨g1, g2, _⟩ := Lay.geo _ ht.1 _ _ M M' lv pl hdj hM1 hl
        refine ⟨g1, g2, fun hMN m hm => ?_⟩
        have := ih ⟨j, hjn⟩ ht.1 (hM.2 _) (hix _) _ _ M M' lv pl m hdj hM1 hMN hl hm
        rw [← Nat.add_assoc] at this
        exact this) h hfw
    rw [show p + s - p = s by omega] at k3
    exact k3

end Cista.Ser

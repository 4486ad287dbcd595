import Verif.Ser.Le

/-!
# The deep check accepts what the serializer wrote
-/
set_option linter.unusedSimpArgs false
set_option linter.unusedSectionVars false

namespace Cista.Ser

variable {e : SEnv} {d : DEnv} {base N : Nat} {G : Option Nat → Pointee → Option Nat → Prop} {m : Mem}

/-! ## No check fails -/

/-- The run does not throw. -/
def Acc {α : Type} (r : Res α) : Prop := r ≠ .error .exn

theorem Acc.ok {α : Type} (v : α) : Acc (.ok v : Res α) := fun h => by cases h

theorem Acc.bind {α β : Type} {r : Res α} {f : α → Res β} (hr : Acc r) (hf : ∀ v, Acc (f v)) : Acc (r >>= f) := by
  cases r with
  | ok v => exact hf v
  | error x =>
    intro h
    rw [error_bind] at h
    exact hr (by injection h with h; rw [h])

theorem Acc.forFrom {σ : Type} {f : Nat → σ → Res σ} : ∀ (k i : Nat) (s : σ), (∀ j s, i ≤ j → j < i + k → Acc (f j s)) → Acc (forFrom f i k s)
  | 0, _, _, _ => Acc.ok _
  | k + 1, i, s, h => by
    rw [forFrom_succ]
    exact Acc.bind (h i s (Nat.le_refl _) (by omega)) fun s' => Acc.forFrom k (i + 1) s' fun j s h1 h2 => h j s (by omega) (by omega)

theorem checkVec_mem (hk : Linked e d base N) {sw a p : Nat} {s : Option Nat} {size al : Nat} (hsw : sw = 4 ∨ sw = 8)
    (hp : p + (16 + 2 * sw) ≤ N) (h8b : 8 ∣ base) (h8 : 8 ∣ p) (hfm : ∀ l ∈ vecLeaves e sw a p s, Fm e d base G m l)
    (hs : ∀ y, s = some y → y + rdN e.host e.mem (a + 8) sw * size ≤ N ∧ al ∣ y ∧ al ∣ base)
    (hn : s = none ↔ rdN e.host e.mem (a + 8) sw = 0) :
    checkVec d sw size al (base + p) m = .ok () ∧ loadPtr d m (base + p) = .ok (addrOf base s) ∧
    ldN d m (base + p + 8) sw = .ok (rdN e.host e.mem (a + 8) sw) := by
  have hlo := hk.lo
  have hhi := hk.hi
  have hfit := hk.fits
  have hbase := hk.start
  have hsd : sw ∣ 8 := by rcases hsw with h | h <;> subst h <;> decide
  have b0 : InB d (base + p) 8 8 := inB_of hk (by omega) h8b h8
  have b1 : InB d (base + (p + 8 + sw)) sw sw := inB_of hk (by omega) (Nat.dvd_trans hsd h8b)
    (Nat.dvd_add (Nat.dvd_add (Nat.dvd_trans hsd h8) hsd) (Nat.dvd_refl _))
  have b2 : InB d (base + (p + 8)) sw sw := inB_of hk (by omega) (Nat.dvd_trans hsd h8b) (Nat.dvd_add (Nat.dvd_trans hsd h8) hsd)
  have b3 : InB d (base + (p + 8 + 2 * sw)) 1 1 := inB_of hk (by omega) (Nat.one_dvd _) (Nat.one_dvd _)
  have q0 : rd m (base + p) 8 = ptrBytes d base p s := hfm (p, .own s) (by simp [vecLeaves])
  have q3 : rd m (base + (p + 8 + 2 * sw)) 1 = [0#8] := hfm (p + 8 + 2 * sw, .raw [0#8]) (by simp [vecLeaves])
  have hld : loadPtr d m (base + p) = .ok (addrOf base s) := loadPtr_bytes hk b0 (fun y hy => by have := hs y hy; omega) q0
  have n1 : rdN d.host m (base + (p + 8 + sw)) sw = rdN e.host e.mem (a + 8) sw :=
    Fm.int (hfm (p + 8 + sw, .int (rd e.mem (a + 8) sw)) (by simp [vecLeaves]))
  have n2 : rdN d.host m (base + (p + 8)) sw = rdN e.host e.mem (a + 8) sw :=
    Fm.int (hfm (p + 8, .int (rd e.mem (a + 8) sw)) (by simp [vecLeaves]))
  have a1 : base + p + 8 + sw = base + (p + 8 + sw) := by omega
  have a2 : base + p + 8 = base + (p + 8) := by omega
  have a3 : base + p + 8 + 2 * sw = base + (p + 8 + 2 * sw) := by omega
  have l2 : ldN d m (base + p + 8) sw = .ok (rdN e.host e.mem (a + 8) sw) := by rw [a2, ldN_pass b2, n2]
  refine ⟨?_, hld, l2⟩
  have hmul : Arith.checkedMultiplication u64 (rdN e.host e.mem (a + 8) sw : Int) [(size : Int)] =
      .ok ((rdN e.host e.mem (a + 8) sw * size : Nat) : Int) := by
    cases hss : s with
    | none =>
      rw [hn.1 hss, Nat.zero_mul]
      have : Arith.checkedMultiplication u64 ((0 : Nat) : Int) [(size : Int)] =
        (Arith.multiplyIfOk u64 0 (size : Int) >>= fun r => .ok r) := rfl
      rw [this]
      have : Arith.multiplyIfOk u64 0 (size : Int) = .ok 0 := by
        unfold Arith.multiplyIfOk
        rw [if_neg (fun h => h.1 rfl), Int.zero_mul]
        decide
      rw [this]; rfl
    | some y =>
      have := hs y hss
      have h1 : 0 < rdN e.host e.mem (a + 8) sw := Nat.pos_of_ne_zero fun h => by rw [hn.2 h] at hss; cases hss
      have h2 := Nat.mul_le_mul_right size h1
      have hlt : rdN e.host e.mem (a + 8) sw < 2 ^ 64 := by
        have := rdN_lt e.host e.mem (a + 8) sw
        have : 256 ^ sw ≤ 2 ^ 64 := by rcases hsw with h | h <;> subst h <;> decide
        omega
      rw [mul64 hlt (by omega), if_pos (by omega)]
  unfold checkVec
  rw [a1, ldN_pass b1, ok_bind, n1, hmul, ok_bind, Int.toNat_natCast,
    checkPtrAt_pass hk b0 (fun y hy => ⟨(hs y hy).1, Or.inr (Nat.mod_eq_zero_of_dvd (Nat.dvd_add (hs y hy).2.2 (hs y hy).2.1))⟩) q0, ok_bind, a3,
    checkNotOwned_pass b3 (byte_of_rd q3), ok_bind, l2, ok_bind,
    show decide (rdN e.host e.mem (a + 8) sw = rdN e.host e.mem (a + 8) sw) = true from decide_eq_true rfl, verify_true, ok_bind,
    hld, ok_bind]
  have : (rdN e.host e.mem (a + 8) sw = 0 ↔ addrOf base s = 0) := by
    rw [← hn]
    cases s with
    | none => exact ⟨fun _ => rfl, fun _ => rfl⟩
    | some y =>
      constructor
      · intro h; cases h
      · intro h; unfold addrOf at h; dsimp only at h; omega
  rw [show decide (rdN e.host e.mem (a + 8) sw = 0 ↔ addrOf base s = 0) = true from decide_eq_true this]
  rfl

theorem checkStr_mem (hk : Linked e d base N) {a p : Nat} {s : Option Nat}
    (hp : p + 16 ≤ N) (h8b : 8 ∣ base) (h8 : 8 ∣ p) (hfm : ∀ l ∈ strLeaves e a p s, Fm e d base G m l)
    (hs : ∀ y, s = some y → y + rdN e.host e.mem (a + 4) 4 ≤ N) (hn : s = none ↔ rdN e.host e.mem (a + 4) 4 = 0) :
    checkStr d (base + p) m = .ok () := by
  have hlo := hk.lo
  have hhi := hk.hi
  have hfit := hk.fits
  have hbase := hk.start
  have b0 : InB d (base + p) 1 1 := inB_of hk (by omega) (Nat.one_dvd _) (Nat.one_dvd _)
  have b1 : InB d (base + (p + 8)) 8 8 := inB_of hk (by omega) h8b (Nat.dvd_add h8 (Nat.dvd_refl _))
  have b2 : InB d (base + (p + 4)) 4 4 := inB_of hk (by omega) (Nat.dvd_trans (by decide) h8b)
    (Nat.dvd_add (Nat.dvd_trans (by decide) h8) (Nat.dvd_refl _))
  have b3 : InB d (base + (p + 1)) 1 1 := inB_of hk (by omega) (Nat.one_dvd _) (Nat.one_dvd _)
  have q0 : rd m (base + p) 1 = [0#8] := hfm (p, .raw [0#8]) (by simp [strLeaves])
  have q1 : rd m (base + (p + 8)) 8 = ptrBytes d base (p + 8) s := hfm (p + 8, .own s) (by simp [strLeaves])
  have q3 : rd m (base + (p + 1)) 1 = [0#8] := hfm (p + 1, .raw [0#8]) (by simp [strLeaves])
  have hld : loadPtr d m (base + (p + 8)) = .ok (addrOf base s) := loadPtr_bytes hk b1 (fun y hy => by have := hs y hy; omega) q1
  have n2 : rdN d.host m (base + (p + 4)) 4 = rdN e.host e.mem (a + 4) 4 :=
    Fm.int (hfm (p + 4, .int (rd e.mem (a + 4) 4)) (by simp [strLeaves]))
  have a1 : base + p + 8 = base + (p + 8) := by omega
  have a2 : base + p + 4 = base + (p + 4) := by omega
  have a3 : base + p + 1 = base + (p + 1) := by omega
  unfold checkStr
  rw [checkBool_pass b0 (Or.inl (byte_of_rd q0)), ok_bind, ldN_pass b0, ok_bind, rdN_one, byte_of_rd q0, if_pos (by rfl), a2,
    ldN_pass b2, ok_bind, n2, a1, checkPtrAt_pass hk b1 (fun y hy => ⟨hs y hy, Or.inr (Nat.mod_one _)⟩) q1, ok_bind, a3,
    checkNotOwned_pass b3 (byte_of_rd q3), ok_bind, hld, ok_bind]
  have : (rdN e.host e.mem (a + 4) 4 = 0 ↔ addrOf base s = 0) := by
    rw [← hn]
    cases s with
    | none => exact ⟨fun _ => rfl, fun _ => rfl⟩
    | some y =>
      constructor
      · intro h; cases h
      · intro h; unfold addrOf at h; dsimp only at h; omega
  rw [show decide (rdN e.host e.mem (a + 4) 4 = 0 ↔ addrOf base s = 0) = true from decide_eq_true this]
  rfl

theorem checkHash_mem (hk : Linked e d base N) {a p ctrl n : Nat} {s : Option Nat} {size al : Nat}
    (hp : p + 48 ≤ N) (h8b : 8 ∣ base) (h8 : 8 ∣ p) (hfm : ∀ l ∈ hashLeaves e a p s ctrl, Fm e d base G m l)
    (hal : al ∣ base) (hsz : 0 < size) (hn : rdN e.host e.mem (a + 24) 8 = n) (hc : ctrl + (n + 9) ≤ N)
    (hs : ∀ y, s = some y → 0 < n ∧ ctrl = y + n * size ∧ al ∣ y) (h0 : s = none → n = 0 ∧ rdN e.host e.mem (a + 16) 8 = 0)
    (ht : HTable (ctl m (base + ctrl) (n + 9)) n (rdN e.host e.mem (a + 16) 8) (rdN e.host e.mem (a + 32) 8)) :
    checkHash d size al (base + p) m = .ok () ∧ loadPtr d m (base + p + 8) = .ok ((base + ctrl : Nat) : Int) ∧
      loadPtr d m (base + p) = .ok (addrOf base s) ∧ ldN d m (base + p + 24) 8 = .ok n := by
  have hlo := hk.lo
  have hhi := hk.hi
  have hfit := hk.fits
  have hbase := hk.start
  have b0 : InB d (base + p) 8 8 := inB_of hk (by omega) h8b h8
  have b8 : InB d (base + (p + 8)) 8 8 := inB_of hk (by omega) h8b (Nat.dvd_add h8 (by decide))
  have b16 : InB d (base + (p + 16)) 8 8 := inB_of hk (by omega) h8b (Nat.dvd_add h8 (by decide))
  have b24 : InB d (base + (p + 24)) 8 8 := inB_of hk (by omega) h8b (Nat.dvd_add h8 (by decide))
  have b32 : InB d (base + (p + 32)) 8 8 := inB_of hk (by omega) h8b (Nat.dvd_add h8 (by decide))
  have b40 : InB d (base + (p + 40)) 1 1 := inB_of hk (by omega) (Nat.one_dvd _) (Nat.one_dvd _)
  have bc : InB d (base + ctrl) (n + 9) 1 := inB_of hk (by omega) (Nat.one_dvd _) (Nat.one_dvd _)
  have hsal : ∀ y, s = some y → (base + y) % al = 0 := fun y hy => Nat.mod_eq_zero_of_dvd (Nat.dvd_add hal (hs y hy).2.2)
  have q0 : rd m (base + p) 8 = ptrBytes d base p s := hfm (p, .own s) (by simp [hashLeaves])
  have q8 : rd m (base + (p + 8)) 8 = ptrBytes d base (p + 8) (some ctrl) := hfm (p + 8, .own (some ctrl)) (by simp [hashLeaves])
  have q40 : rd m (base + (p + 40)) 1 = [0#8] := hfm (p + 40, .raw [0#8]) (by simp [hashLeaves])
  have l0 : loadPtr d m (base + p) = .ok (addrOf base s) := loadPtr_bytes hk b0 (fun y hy => by have := (hs y hy).2.1; omega) q0
  have l8 : loadPtr d m (base + (p + 8)) = .ok ((base + ctrl : Nat) : Int) :=
    loadPtr_bytes hk b8 (fun y hy => by injection hy with hy; subst hy; omega) q8
  have n16 : rdN d.host m (base + (p + 16)) 8 = rdN e.host e.mem (a + 16) 8 :=
    Fm.int (hfm (p + 16, .int (rd e.mem (a + 16) 8)) (by simp [hashLeaves]))
  have n24 : rdN d.host m (base + (p + 24)) 8 = n :=
    (Fm.int (hfm (p + 24, .int (rd e.mem (a + 24) 8)) (by simp [hashLeaves]))).trans hn
  have n32 : rdN d.host m (base + (p + 32)) 8 = rdN e.host e.mem (a + 32) 8 :=
    Fm.int (hfm (p + 32, .int (rd e.mem (a + 32) 8)) (by simp [hashLeaves]))
  have a8 : base + p + 8 = base + (p + 8) := by omega
  have a16 : base + p + 16 = base + (p + 16) := by omega
  have a24 : base + p + 24 = base + (p + 24) := by omega
  have a32 : base + p + 32 = base + (p + 32) := by omega
  have a40 : base + p + 40 = base + (p + 40) := by omega
  refine ⟨?_, by rw [a8]; exact l8, l0, by rw [a24, ldN_pass b24, n24]⟩
  have hmul : n * size + (n + 9) < 2 ^ 64 := by
    cases hc : s with
    | none => rw [(h0 hc).1, Nat.zero_mul]; decide
    | some y => have := (hs y hc).2.1; omega
  unfold checkHash
  rw [a8, a16, a24, a32, a40, l8, ok_bind, decide_eq_true (show ((base + ctrl : Nat) : Int) ≠ 0 by omega), verify_true, ok_bind,
    ldN_pass b24, ok_bind, n24, mulU (by omega) hsz, ok_bind, addU9 (by omega), if_pos (by omega), ok_bind,
    addU64 (by omega) (by omega), if_pos hmul, ok_bind, Int.toNat_natCast, Int.toNat_natCast,
    checkPtrAt_pass hk b0 (fun y hy => ⟨by have := (hs y hy).2.1; omega, Or.inr (hsal y hy)⟩) q0, ok_bind,
    checkPtrAt_pass hk b8 (fun y hy => by injection hy with hy; subst hy; exact ⟨by omega, Or.inr (Nat.mod_one _)⟩) q8, ok_bind,
    l0, ok_bind]
  have c1 : addrOf base s = 0 ∨ ((base + ctrl : Nat) : Int) = addrOf base s + ((n * size : Nat) : Int) := by
    cases hc : s with
    | none => exact Or.inl rfl
    | some y =>
      have := (hs y hc).2.1
      right
      unfold addrOf
      dsimp only
      omega
  have c2 : addrOf base s = 0 ↔ (n = 0 ∧ rdN e.host e.mem (a + 16) 8 = 0) := by
    cases hc : s with
    | none => exact ⟨fun _ => h0 hc, fun _ => rfl⟩
    | some y =>
      have := (hs y hc).1
      constructor
      · intro h; unfold addrOf at h; dsimp only at h; omega
      · intro h; omega
  rw [decide_eq_true c1, verify_true, ok_bind, ldN_pass b16, ok_bind, n16, decide_eq_true c2, verify_true, ok_bind,
    checkNotOwned_pass b40 (byte_of_rd q40), ok_bind, toAddr_ok (by omega), ok_bind, ld_ok bc, ok_bind, ldN_pass b32, ok_bind, n32]
  refine checkState_table ht ?_
  rw [← c2]
  constructor
  · intro h
    exact Decidable.of_not_not (of_decide_eq_false h)
  · intro h
    exact decide_eq_false (fun h' => h' h)

theorem chk_ok {u : Bool} {r : Res Unit} (h : r = .ok ()) : chk u r = .ok () := by
  unfold chk
  rw [h]
  split <;> rfl

/-- A part of a chain. -/
theorem ChainFrom.part {R : Nat → Rel} : ∀ (k i L L' : Nat) (lv : List (Nat × Leaf)) (pl : List Place),
    (∀ j, ∀ M M' lv pl, R j M M' lv pl → M ≤ M') → ChainFrom R i k L L' lv pl → ∀ j, i ≤ j → j < i + k →
    ∃ M M' lv1 pl1, R j M M' lv1 pl1 ∧ L ≤ M ∧ M' ≤ L' ∧ lv1 ⊆ lv
  | 0, i, L, L', lv, pl, _, _ => fun j h1 h2 => by omega
  | k + 1, i, L, L', lv, pl, hR, h => by
    obtain ⟨M, lv1, lv2, pl1, pl2, h1, h2, rfl, rfl⟩ := h
    intro j hj hk
    by_cases he : j = i
    · subst he
      exact ⟨L, M, lv1, pl1, h1, Nat.le_refl _, ChainFrom.le k _ _ _ _ _ hR h2, List.subset_append_left _ _⟩
    · obtain ⟨N, N', lv3, pl3, g1, g2, g3, g4⟩ := ChainFrom.part k (i + 1) M L' lv2 pl2 hR h2 j (by omega) (by omega)
      have := hR _ _ _ _ _ h1
      exact ⟨N, N', lv3, pl3, g1, by omega, g3, fun l hl => List.mem_append_right _ (g4 hl)⟩

/-- The part of a chain a place comes from. -/
theorem ChainFrom.place {R : Nat → Rel} : ∀ (k i L L' : Nat) (lv : List (Nat × Leaf)) (pl : List Place),
    (∀ j, ∀ M M' lv pl, R j M M' lv pl → M ≤ M') → ChainFrom R i k L L' lv pl → ∀ g ∈ pl,
    ∃ j M M' lv1 pl1, i ≤ j ∧ j < i + k ∧ R j M M' lv1 pl1 ∧ L ≤ M ∧ M' ≤ L' ∧ lv1 ⊆ lv ∧ g ∈ pl1
  | 0, i, L, L', lv, pl, _, h => by
    obtain ⟨rfl, rfl, rfl⟩ := h
    intro g hg
    simp at hg
  | k + 1, i, L, L', lv, pl, hR, h => by
    obtain ⟨M, lv1, lv2, pl1, pl2, h1, h2, rfl, rfl⟩ := h
    intro g hg
    rcases List.mem_append.1 hg with hg | hg
    · exact ⟨i, L, M, lv1, pl1, Nat.le_refl _, by omega, h1, Nat.le_refl _, ChainFrom.le k _ _ _ _ _ hR h2,
        List.subset_append_left _ _, hg⟩
    · obtain ⟨j, N, N', lv3, pl3, a1, a2, g1, g2, g3, g4, g5⟩ := ChainFrom.place k (i + 1) M L' lv2 pl2 hR h2 g hg
      have := hR _ _ _ _ _ h1
      exact ⟨j, N, N', lv3, pl3, by omega, by omega, g1, by omega, g3, fun l hl => List.mem_append_right _ (g4 hl), g5⟩

theorem deepT_acc (hk : Linked e d base N) {rec : Nat → Nat → Vis → Res Vis}
    (hG : ∀ x pt tg, G x pt tg → ∀ y, tg = some y → pt ≠ .void ∧ y ≤ N ∧
      (d.unchecked = false → y + (pointee d pt).1 ≤ N ∧ ((pointee d pt).2 = 0 ∨ (base + y) % (pointee d pt).2 = 0))) :
    ∀ t : Ty, t.WF → t.Al base → ∀ a p L L' lv pl, t.alignof ∣ p → p + t.sizeof ≤ L → L' ≤ N →
    Lay e t a p L L' lv pl → (∀ l ∈ lv, Fm e d base G m l) →
    (∀ q x n, (q, Leaf.ptr x (.obj n)) ∈ lv → ∀ y, G x (.obj n) (some y) → ∀ vis, Acc (rec n (base + y) vis)) →
    ∀ vis, Acc (deepT d m rec t (base + p) vis) := by
  have hlo := hk.lo
  have hhi := hk.hi
  have hfit := hk.fits
  have hbase := hk.start
  intro t
  induction t with
  | int w =>
    intro hw hM a p L L' lv pl hal hp hN h hm hrec vis
    obtain ⟨rfl, rfl, rfl⟩ := h
    simp only [Ty.sizeof, Ty.alignof, Ty.Al] at hp hal hM
    have b := inB_of hk (q := p) (n := w) (al := w) (by omega) hM hal
    unfold deepT
    rw [checkAddr_pass hk b.1 b.2.1 (Or.inr b.2.2), ok_bind]
    exact Acc.ok _
  | blob s al =>
    intro hw hM a p L L' lv pl hal hp hN h hm hrec vis
    obtain ⟨rfl, rfl, rfl⟩ := h
    simp only [Ty.sizeof, Ty.alignof, Ty.Al] at hp hal hM
    have b := inB_of hk (q := p) (n := s) (al := al) (by omega) hM hal
    unfold deepT
    rw [checkAddr_pass hk b.1 b.2.1 (Or.inr b.2.2), ok_bind]
    exact Acc.ok _
  | ptr pt =>
    intro hw hM a p L L' lv pl hal hp hN h hm hrec vis
    obtain ⟨rfl, rfl, rfl⟩ := h
    simp only [Ty.sizeof, Ty.alignof, Ty.Al] at hp hal hM
    have b := inB_of hk (q := p) (n := 8) (al := 8) (by omega) hM hal
    obtain ⟨tg, h1, h2⟩ := hm _ (List.mem_singleton.2 rfl)
    cases pt with
    | void =>
      have : tg = none := by
        cases tg with
        | none => rfl
        | some y => exact absurd rfl (hG _ _ _ h2 y rfl).1
      subst this
      unfold deepT
      rw [checkAddr_pass hk b.1 b.2.1 (Or.inr b.2.2), ok_bind, chk_ok (checkPtrAt_pass hk b (fun y hy => by cases hy) h1), ok_bind]
      exact Acc.ok _
    | obj n =>
      unfold deepT
      have hl := loadPtr_bytes hk b (fun y hy => (hG _ _ _ h2 y hy).2.1) h1
      have hch : chk d.unchecked (checkPtrAt d m (base + p) (d.obj n).1 (d.obj n).2) = .ok () := by
        cases hu : d.unchecked with
        | true => rfl
        | false => exact checkPtrAt_pass hk b (fun y hy => (hG _ _ _ h2 y hy).2.2 hu) h1
      rw [checkAddr_pass hk b.1 b.2.1 (Or.inr b.2.2), ok_bind, hch, ok_bind, hl, ok_bind]
      split
      · exact Acc.ok _
      · next hz =>
        split
        · exact Acc.ok _
        · cases htg : tg with
          | none => rw [htg] at hz; exact absurd rfl hz
          | some y =>
            rw [show toAddr (addrOf base (some y)) = .ok (base + y) by
              unfold toAddr addrOf; dsimp only; rw [if_neg (by omega), Int.toNat_natCast], ok_bind]
            rw [htg] at h2
            exact hrec p _ n (List.mem_singleton.2 rfl) y h2 _
  | vec sw ix t ih =>
    intro hw hM a p L L' lv pl hal hp hN h hm hrec vis
    have htp := Ty.pos_of_WF (t := t) hw.2
    simp only [Ty.sizeof, Ty.alignof, Ty.Al] at hp hal hM
    obtain ⟨hM8, hM⟩ := hM
    unfold deepT
    rcases h with ⟨h0, rfl, rfl, rfl⟩ | ⟨hn, el, s, lv', pl', hel, hs, hals, hc, rfl, rfl⟩
    · have b := inB_of hk (q := p) (n := 16 + 2 * sw) (al := 8) (by omega) hM8 hal
      obtain ⟨c1, c2, c3⟩ := checkVec_mem hk (size := t.sizeof) (al := t.alignof) hw.1 (by omega) hM8 hal hm (fun y hy => by cases hy)
        ⟨fun _ => h0, fun _ => rfl⟩
      rw [show (Ty.vec sw ix t).sizeof = 16 + 2 * sw from rfl, checkAddr_pass hk b.1 b.2.1 (Or.inr b.2.2), ok_bind, chk_ok c1, ok_bind,
        c2, ok_bind, c3, ok_bind, if_pos h0]
      exact Acc.ok _
    · have hle := ChainFrom.le _ _ _ _ _ _ (fun j => Lay.le t _ _) hc
      have b := inB_of hk (q := p) (n := 16 + 2 * sw) (al := 8) (by omega) hM8 hal
      obtain ⟨c1, c2, c3⟩ := checkVec_mem hk (s := some s) (size := t.sizeof) (al := t.alignof) hw.1 (by omega) hM8 hal
        (fun l hl => hm l (List.mem_append_left _ hl))
        (fun y hy => by injection hy with hy; subst hy; exact ⟨by omega, hals, hM.dvd⟩)
        ⟨(fun h => by cases h), fun h => by omega⟩
      rw [show (Ty.vec sw ix t).sizeof = 16 + 2 * sw from rfl, checkAddr_pass hk b.1 b.2.1 (Or.inr b.2.2), ok_bind, chk_ok c1, ok_bind,
        c2, ok_bind, c3, ok_bind, if_neg (by omega), show toAddr (addrOf base (some s)) = .ok (base + s) by
        unfold toAddr addrOf; dsimp only; rw [if_neg (by omega), Int.toNat_natCast], ok_bind]
      refine Acc.forFrom _ _ _ fun j vis' _ hj => ?_
      obtain ⟨M, M', lv1, pl1, g1, g2, g3, g4⟩ := ChainFrom.part _ _ _ _ _ _ (fun j => Lay.le t _ _) hc j (Nat.zero_le _) hj
      have hb := mul_bound (s := t.sizeof) (show j < rdN e.host e.mem (a + 8) sw by omega)
      show Acc (deepT d m rec t (base + s + j * t.sizeof) vis')
      rw [Nat.add_assoc]
      exact ih hw.2 hM _ _ M M' lv1 pl1 (Nat.dvd_add hals (Nat.dvd_trans htp.2.2 (Nat.dvd_mul_left _ _))) (by omega) (by omega) g1
        (fun l hl => hm l (List.mem_append_right _ (g4 hl))) (fun q x n hq => hrec q x n (List.mem_append_right _ (g4 hq))) vis'
  | str =>
    intro hw hM a p L L' lv pl hal hp hN h hm hrec vis
    simp only [Ty.sizeof, Ty.alignof, Ty.Al] at hp hal hM
    obtain ⟨rfl, h⟩ := h
    have b := inB_of hk (q := p) (n := 16) (al := 8) (by have := Lay.le (e := e) .str a p L L' lv [] ⟨rfl, h⟩; omega) hM hal
    have b0 : InB d (base + p) 1 1 := b.head (by omega) (Nat.one_dvd _)
    unfold deepT
    have hpN : p + 16 ≤ N := by have := Lay.le (e := e) .str a p L L' lv [] ⟨rfl, h⟩; omega
    have hc : checkStr d (base + p) m = .ok () := by
      rcases h with ⟨h1, rfl, rfl⟩ | ⟨h0, hz, hnull, rfl, rfl⟩ | ⟨h0, hz, x, hx, rfl, rfl⟩
      · have hf := Fm.raw (hm _ List.mem_cons_self)
        have hm1 : m (base + p) = 1#8 := by
          have := (rd_eq_iff.1 hf) 0 (by omega)
          simpa [h1] using this
        unfold checkStr
        rw [checkBool_pass b0 (Or.inr hm1), ok_bind, ldN_pass b0, ok_bind, rdN_one, hm1, if_neg (by decide)]
      · exact checkStr_mem hk hpN hM hal hm (fun y hy => by cases hy) ⟨fun _ => hz, fun _ => rfl⟩
      · exact checkStr_mem hk (s := some L) hpN hM hal (fun l hl => hm l (List.mem_append_left _ hl))
          (fun y hy => by injection hy with hy; subst hy; omega) ⟨(fun h => by cases h), fun h => by omega⟩
    rw [checkAddr_pass hk b.1 b.2.1 (Or.inr b.2.2), ok_bind, chk_ok hc, ok_bind]
    exact Acc.ok _
  | uptr t ih =>
    intro hw hM a p L L' lv pl hal hp hN h hm hrec vis
    have htp := Ty.pos_of_WF (t := t) hw
    simp only [Ty.sizeof, Ty.alignof, Ty.Al] at hp hal hM
    obtain ⟨hM8, hM⟩ := hM
    have hle := Lay.le (e := e) (.uptr t) a p L L' lv pl h
    have b := inB_of hk (q := p) (n := 16) (al := 8) (by omega) hM8 hal
    have b0 : InB d (base + p) 8 8 := b.head (by omega) (Nat.dvd_refl _)
    have b1 : InB d (base + p + 8) 1 1 := b.sub (by omega) (by decide) (by decide)
    unfold deepT
    rcases h with ⟨h0, rfl, rfl, rfl⟩ | ⟨el, s, lv', pl', hel, hs, hals, hc, rfl, rfl⟩
    · have m1 : rd m (base + p) 8 = ptrBytes d base p none := hm (p, .own none) (by simp)
      have m2 : m (base + p + 8) = 0#8 := by
        rw [show base + p + 8 = base + (p + 8) by omega]
        exact Fm.byte (hm (p + 8, .raw [0#8]) (by simp))
      rw [checkAddr_pass hk b.1 b.2.1 (Or.inr b.2.2), ok_bind, chk_ok (checkNotOwned_pass b1 m2), ok_bind,
        loadPtr_bytes hk b0 (fun y hy => by cases hy) m1, ok_bind, show addrOf base none = 0 from rfl, checkAddr_zero, ok_bind, if_pos rfl]
      exact Acc.ok _
    · have hle' := Lay.le t _ _ _ _ _ _ hc
      have m1 : rd m (base + p) 8 = ptrBytes d base p (some s) := hm (p, .own (some s)) (by simp)
      have m2 : m (base + p + 8) = 0#8 := by
        rw [show base + p + 8 = base + (p + 8) by omega]
        exact Fm.byte (hm (p + 8, .raw [0#8]) (by simp))
      have bs := inB_of hk (q := s) (n := t.sizeof) (al := t.alignof) (by omega) hM.dvd hals
      rw [checkAddr_pass hk b.1 b.2.1 (Or.inr b.2.2), ok_bind, chk_ok (checkNotOwned_pass b1 m2), ok_bind,
        loadPtr_bytes hk b0 (fun y hy => by injection hy with hy; omega) m1, ok_bind,
        show addrOf base (some s) = ((base + s : Nat) : Int) from rfl, checkAddr_pass hk bs.1 bs.2.1 (Or.inr bs.2.2), ok_bind,
        if_neg (by omega), show toAddr ((base + s : Nat) : Int) = .ok (base + s) by
          unfold toAddr; rw [if_neg (by omega), Int.toNat_natCast], ok_bind]
      exact ih hw hM _ _ _ _ _ _ hals (Nat.le_refl _) hN hc (fun l hl => hm l (List.mem_append_right _ hl))
        (fun q x n hq => hrec q x n (List.mem_append_right _ hq)) vis
  | hash t ih =>
    intro hw hM a p L L' lv pl hal hp hN h hm hrec vis
    have hw : t.WF := hw
    have htp := Ty.pos_of_WF (t := t) hw
    simp only [Ty.sizeof, Ty.alignof, Ty.Al] at hp hal hM
    obtain ⟨hM8, hM⟩ := hM
    have hle := Lay.le (e := e) (.hash t) a p L L' lv pl h
    have b := inB_of hk (q := p) (n := 48) (al := 8) (by omega) hM8 hal
    unfold deepT
    rw [checkAddr_pass hk b.1 b.2.1 (Or.inr b.2.2), ok_bind]
    rcases h with ⟨hel, hcap, hsz, rfl, rfl, rfl⟩ | ⟨el, s, lv', hel, hct, hn, htab, hs, hals, hc, rfl⟩
    · have hg : rd m (base + L) 16 = emptyGroup := hm (L, .raw emptyGroup) (by simp)
      have hg9 : ctl m (base + L) (0 + 9) = (emptyGroup.map BitVec.toNat).take 9 := by
        unfold ctl
        rw [← hg]
        rfl
      obtain ⟨c1, c2, c3, c4⟩ := checkHash_mem hk (s := none) (ctrl := L) (size := t.sizeof) (al := t.alignof) (by omega) hM8 hal
        (fun l hl => hm l (List.mem_append_left _ hl)) hM.dvd htp.2.1 hcap (by omega) (fun y hy => by cases hy) (fun _ => ⟨rfl, hsz⟩)
        (by rw [hg9, hsz]; exact table_empty _)
      rw [chk_ok c1, ok_bind, hashFor_nil (mem := fun _ => m) c2 (by omega) c3 c4 (by omega) (by omega)
        (by rw [show 9 = 0 + 9 from rfl, hg9]; exact (table_empty 0).toCtrl)]
      exact Acc.ok _
    · have hle := ChainFrom.le _ _ _ _ _ _ (fun j => slot_le (Lay.le t _ _)) hc
      have hctrl := Fm.raw (hm (s + rdN e.host e.mem (a + 24) 8 * t.sizeof,
        .raw (rd e.mem (el + rdN e.host e.mem (a + 24) 8 * t.sizeof) (rdN e.host e.mem (a + 24) 8 + 9))) (by simp))
      obtain ⟨c1, c2, c3, c4⟩ := checkHash_mem hk (s := some s) (ctrl := s + rdN e.host e.mem (a + 24) 8 * t.sizeof) (size := t.sizeof)
        (al := t.alignof) (by omega) hM8 hal (fun l hl => hm l (List.mem_append_left _ hl)) hM.dvd htp.2.1 rfl (by omega)
        (fun y hy => by injection hy with hy; subst hy; exact ⟨hn, rfl, hals⟩) (fun h => by cases h)
        (by unfold ctl; rw [hctrl]; exact htab)
      rw [chk_ok c1, ok_bind, hashFor_eq (mem := fun _ => m) (el := base + s) (P := fun _ _ => True) c2 (by omega) c3 (by omega) c4
        (by omega) (by omega) (by unfold ctl; rw [hctrl]; exact htab.toCtrl)
        (fun _ _ _ => rfl) (fun _ _ _ _ _ _ _ => trivial) (fun _ _ _ _ _ => trivial) trivial]
      refine Acc.forFrom _ _ _ fun j vis' _ hj => ?_
      obtain ⟨M, M', lv1, pl1, g1, g2, g3, g4⟩ := ChainFrom.part _ _ _ _ _ _ (fun j => slot_le (Lay.le t _ _)) hc j (Nat.zero_le _) hj
      have hb := mul_bound (s := t.sizeof) (show j < rdN e.host e.mem (a + 24) 8 by omega)
      by_cases hf : Full m (base + (s + rdN e.host e.mem (a + 24) 8 * t.sizeof)) j
      · have hf' : Full e.mem (el + rdN e.host e.mem (a + 24) 8 * t.sizeof) j := by
          unfold Full at hf ⊢
          rw [rd_eq_iff.1 hctrl j (by omega)] at hf
          exact hf
        show Acc (if Full m _ j then deepT d m rec t (base + s + j * t.sizeof) vis' else .ok vis')
        rw [if_pos hf, Nat.add_assoc]
        exact ih hw hM _ _ M M' lv1 pl1 (Nat.dvd_add hals (Nat.dvd_trans htp.2.2 (Nat.dvd_mul_left _ _))) (by omega) (by omega) (g1.1 hf')
          (fun l hl => hm l (List.mem_append_right _ (List.mem_cons_of_mem _ (g4 hl))))
          (fun q x n hq => hrec q x n (List.mem_append_right _ (List.mem_cons_of_mem _ (g4 hq)))) vis'
      · show Acc (if Full m _ j then deepT d m rec t (base + s + j * t.sizeof) vis' else .ok vis')
        rw [if_neg hf]
        exact Acc.ok _
  | opt t ih =>
    intro hw hM a p L L' lv pl hal hp hN h hm hrec vis
    have htp := Ty.pos_of_WF (t := t) hw
    have hle := Lay.le (e := e) (.opt t) a p L L' lv pl h
    simp only [Ty.sizeof, Ty.alignof, Ty.Al] at hp hal hM
    have b := inB_of hk (q := p) (n := t.alignof + t.sizeof) (al := t.alignof) (by omega) hM.dvd hal
    have b0 : InB d (base + p) 1 1 := b.head (by omega) (Nat.one_dvd _)
    unfold deepT
    rw [show (Ty.opt t).sizeof = t.alignof + t.sizeof from rfl, show (Ty.opt t).alignof = t.alignof from rfl,
      checkAddr_pass hk b.1 b.2.1 (Or.inr b.2.2), ok_bind]
    rcases h with ⟨h0, rfl, rfl, rfl⟩ | ⟨h1, lv', hc, rfl⟩
    · have m1 := Fm.byte (hm _ List.mem_cons_self)
      rw [chk_ok (checkBool_pass b0 (Or.inl m1)), ok_bind, ldN_pass b0, ok_bind, rdN_one, m1, if_pos (by rfl)]
      exact Acc.ok _
    · have m1 := Fm.byte (hm _ List.mem_cons_self)
      rw [chk_ok (checkBool_pass b0 (Or.inr m1)), ok_bind, ldN_pass b0, ok_bind, rdN_one, m1, if_neg (by decide), Nat.add_assoc]
      exact ih hw hM _ _ _ _ _ _ (Nat.dvd_add hal (Nat.dvd_refl _)) (by omega) hN hc (fun l hl => hm l (List.mem_cons_of_mem _ hl))
        (fun q x n hq => hrec q x n (List.mem_cons_of_mem _ hq)) vis
  | var ib so s al n t ih =>
    intro hw hM a p L L' lv pl hal hp hN h hm hrec vis
    have hle := Lay.le (e := e) (.var ib so s al n t) a p L L' lv pl h
    simp only [Ty.sizeof, Ty.alignof, Ty.Al] at hp hal hM
    obtain ⟨i, lv', hi, hc, rfl⟩ := h
    obtain ⟨w1, w2, w3, w4, w5, w6, w7, w8, w9⟩ := hw
    obtain ⟨v1, v2, v3, v4⟩ := w9 i
    have b := inB_of hk (q := p) (n := s) (al := al) (by omega) hM.1 hal
    have b0 : InB d (base + p) ib ib := b.head (by omega) w6
    have m1 : rdN d.host m (base + p) ib = i.1 := (Fm.int (hm _ List.mem_cons_self)).trans hi
    unfold deepT
    rw [checkAddr_pass hk b.1 b.2.1 (Or.inr b.2.2), ok_bind, ldN_pass b0, ok_bind, m1,
      chk_ok (show verify (decide (i.1 < n)) = .ok () by rw [decide_eq_true i.2]; rfl), ok_bind, dif_pos i.2, Nat.add_assoc]
    exact ih i v1 (hM.2 i) _ _ _ _ _ _ (Nat.dvd_add (Nat.dvd_trans v4 hal) v3) (by omega) hN hc
      (fun l hl => hm l (List.mem_cons_of_mem _ hl)) (fun q x n hq => hrec q x n (List.mem_cons_of_mem _ hq)) vis
  | arr n t ih =>
    intro hw hM a p L L' lv pl hal hp hN h hm hrec vis
    have htp := Ty.pos_of_WF (t := t) hw.2
    have hle := Lay.le (e := e) (.arr n t) a p L L' lv pl h
    simp only [Ty.sizeof, Ty.alignof, Ty.Al] at hp hal hM
    have b := inB_of hk (q := p) (n := n * t.sizeof) (al := t.alignof) (by omega) hM.dvd hal
    unfold deepT
    rw [show (Ty.arr n t).sizeof = n * t.sizeof from rfl, checkAddr_pass hk b.1 b.2.1 (Or.inr b.2.2), ok_bind]
    refine Acc.forFrom _ _ _ fun j vis' _ hj => ?_
    obtain ⟨M, M', lv1, pl1, g1, g2, g3, g4⟩ := ChainFrom.part _ _ _ _ _ _ (fun j => Lay.le t _ _) h j (Nat.zero_le _) hj
    have hb := mul_bound (s := t.sizeof) (show j < n by omega)
    show Acc (deepT d m rec t (base + p + j * t.sizeof) vis')
    rw [Nat.add_assoc]
    exact ih hw.2 hM _ _ M M' lv1 pl1 (Nat.dvd_add hal (Nat.dvd_trans htp.2.2 (Nat.dvd_mul_left _ _))) (by omega) (by omega) g1
      (fun l hl => hm l (g4 hl)) (fun q x n hq => hrec q x n (g4 hq)) vis'
  | idx t ih =>
    intro hw hM a p L L' lv pl hal hp hN h hm hrec vis
    obtain ⟨pl', hc, rfl⟩ := h
    have hle := Lay.le t _ _ _ _ _ _ hc
    simp only [Ty.sizeof, Ty.alignof, Ty.Al] at hp hal hM
    have b := inB_of hk (q := p) (n := t.sizeof) (al := t.alignof) (by omega) hM.dvd hal
    unfold deepT
    rw [checkAddr_pass hk b.1 b.2.1 (Or.inr b.2.2), ok_bind]
    exact ih hw hM _ _ _ _ _ _ hal hp hN hc hm hrec vis
  | agg s al n off t ih =>
    intro hw hM a p L L' lv pl hal hp hN h hm hrec vis
    have hle := Lay.le (e := e) (.agg s al n off t) a p L L' lv pl h
    simp only [Ty.sizeof, Ty.alignof, Ty.Al] at hp hal hM
    have b := inB_of hk (q := p) (n := s) (al := al) (by omega) hM.1 hal
    unfold deepT
    rw [checkAddr_pass hk b.1 b.2.1 (Or.inr b.2.2), ok_bind]
    refine Acc.forFrom _ _ _ fun j vis' _ hj => ?_
    obtain ⟨M, M', lv1, pl1, ⟨hjn, g1⟩, g2, g3, g4⟩ := ChainFrom.part _ _ _ _ _ _
      (fun j M M' lv pl ⟨hj, hl⟩ => Lay.le _ _ _ _ _ _ _ hl) h j (Nat.zero_le _) hj
    obtain ⟨v1, v2, v3, v4⟩ := hw.2.2.2.1 ⟨j, hjn⟩
    show Acc (if h : j < n then deepT d m rec (t ⟨j, h⟩) (base + p + off ⟨j, h⟩) vis' else .ok vis')
    rw [dif_pos hjn, Nat.add_assoc]
    exact ih _ v1 (hM.2 _) _ _ M M' lv1 pl1 (Nat.dvd_add (Nat.dvd_trans v4 hal) v3) (by omega) (by omega) g1
      (fun l hl => hm l (g4 hl)) (fun q x n hq => hrec q x n (g4 hq)) vis'

/-! ## Pointers to objects of their type -/

/-- A value of the first type has a value of the last one at the given distance from its start. -/
inductive Sub : Ty → Nat → Ty → Prop
  | refl (t : Ty) : Sub t 0 t
  | idx {t : Ty} {o : Nat} {u : Ty} : Sub t o u → Sub (.idx t) o u
  | agg {s al n : Nat} {off : Fin n → Nat} {t : Fin n → Ty} {o : Nat} {u : Ty} (i : Fin n) : Sub (t i) o u →
      Sub (.agg s al n off t) (off i + o) u
  | arr {n : Nat} {t : Ty} {o : Nat} {u : Ty} (i : Nat) : i < n → Sub t o u → Sub (.arr n t) (i * t.sizeof + o) u

/-- The objects inside the value at `a` that pointers may refer to: address, number and type; `ex` objects only by their
address, the others (storage of an indexed vector) also by an address inside. -/
def ObjT (s : Side) : Ty → (a : Nat) → (ex : Bool) → (v cnt : Nat) → (u : Ty) → Prop
  | .vec sw ix ty, a, ex, v, cnt, u => ∃ el, s.ptr a = some el ∧
      ((ix = true ∧ 0 < s.nat (a + 8) sw ∧ ex = false ∧ v = el ∧ cnt = s.nat (a + 8) sw ∧ u = ty) ∨
        ∃ i, i < s.nat (a + 8) sw ∧ ObjT s ty (el + i * ty.sizeof) ex v cnt u)
  | .uptr ty, a, ex, v, cnt, u => ∃ el, s.ptr a = some el ∧
      ((ex = true ∧ v = el ∧ cnt = 1 ∧ u = ty) ∨ ObjT s ty el ex v cnt u)
  | .hash ty, a, ex, v, cnt, u => ∃ el c, s.ptr a = some el ∧ s.ptr (a + 8) = some c ∧
      ∃ i, i < s.nat (a + 24) 8 ∧ Full s.mem c i ∧ ObjT s ty (el + i * ty.sizeof) ex v cnt u
  | .opt ty, a, ex, v, cnt, u => s.mem a = 1#8 ∧ ObjT s ty (a + ty.alignof) ex v cnt u
  | .var ib so _ _ k ty, a, ex, v, cnt, u => ∃ i : Fin k, s.nat a ib = i.1 ∧ ObjT s (ty i) (a + so) ex v cnt u
  | .arr k ty, a, ex, v, cnt, u => ∃ i, i < k ∧ ObjT s ty (a + i * ty.sizeof) ex v cnt u
  | .idx ty, a, ex, v, cnt, u => (ex = true ∧ v = a ∧ cnt = 1 ∧ u = ty) ∨ ObjT s ty a ex v cnt u
  | .agg _ _ k off ty, a, ex, v, cnt, u => ∃ i : Fin k, ObjT s (ty i) (a + off i) ex v cnt u
  | .int _, _, _, _, _, _ => False
  | .blob _ _, _, _, _, _, _ => False
  | .ptr _, _, _, _, _, _ => False
  | .str, _, _, _, _, _ => False

/-- A value of type `ty` has a value of type `u` at distance `o` from its start (up to cut-off types, see `Le`). -/
def SubLe (M : Nat) (ty : Ty) (o : Nat) (u : Ty) : Prop := ∃ u', Sub ty o u' ∧ Le M u' u

/-- Every serialized object that covers `v` has a value of type `u` there. -/
def HasTy (M : Nat) (s : Side) (t : Ty) (a : Nat) (u : Ty) (v : Nat) : Prop :=
  (∀ cnt ty, ObjT s t a true v cnt ty → SubLe M ty 0 u) ∧
  ∀ el cnt ty, ObjT s t a false el cnt ty → el ≤ v → v < el + cnt * ty.sizeof → SubLe M ty ((v - el) % ty.sizeof) u

/-- Pointers to a serialized object refer to a value of their pointee type. -/
def PtrsDeep (M : Nat) (tys : Nat → Ty) (s : Side) (t : Ty) (a : Nat) : Prop := Ptrs s (fun n v => HasTy M s t a (tys n) v) t a

theorem Sub.toLe {M : Nat} {ty u : Ty} {o : Nat} (h : Sub ty o u) : SubLe M ty o u := ⟨u, h, .refl u⟩

theorem Sub.geo {t u : Ty} {o : Nat} (h : Sub t o u) : t.WF → u.WF ∧ o + u.sizeof ≤ t.sizeof ∧ u.alignof ∣ t.alignof ∧ u.alignof ∣ o := by
  induction h with
  | refl t => exact fun hw => ⟨hw, by omega, Nat.dvd_refl _, Nat.dvd_zero _⟩
  | idx _ ih => exact ih
  | agg i _ ih =>
    intro hw
    obtain ⟨v1, v2, v3, v4⟩ := hw.2.2.2.1 i
    obtain ⟨g1, g2, g3, g4⟩ := ih v1
    refine ⟨g1, ?_, Nat.dvd_trans g3 v4, Nat.dvd_add (Nat.dvd_trans g3 v3) g4⟩
    simp only [Ty.sizeof]
    omega
  | @arr n t o u i hi _ ih =>
    intro hw
    have htp := Ty.pos_of_WF (t := t) hw.2
    obtain ⟨g1, g2, g3, g4⟩ := ih hw.2
    have hb := mul_bound (s := t.sizeof) hi
    refine ⟨g1, ?_, g3, Nat.dvd_add (Nat.dvd_trans g3 (Nat.dvd_trans htp.2.2 (Nat.dvd_mul_left _ _))) g4⟩
    simp only [Ty.sizeof]
    omega

theorem Sub.al {t u : Ty} {o M : Nat} (h : Sub t o u) : t.Al M → u.Al M := by
  induction h with
  | refl t => exact id
  | idx _ ih => exact ih
  | agg i _ ih => exact fun h => ih (h.2 i)
  | arr i hi _ ih => exact ih

/-- A value inside a laid out value is laid out. -/
theorem Lay.sub {t u : Ty} {o : Nat} (h : Sub t o u) : ∀ a p L L' lv pl, Lay e t a p L L' lv pl →
    ∃ L1 L1' lv1 pl1, Lay e u (a + o) (p + o) L1 L1' lv1 pl1 ∧ L ≤ L1 ∧ L1' ≤ L' ∧ lv1 ⊆ lv := by
  induction h with
  | refl t => exact fun a p L L' lv pl h => ⟨L, L', lv, pl, h, Nat.le_refl _, Nat.le_refl _, fun _ h => h⟩
  | idx _ ih =>
    rintro a p L L' lv pl ⟨pl', hc, rfl⟩
    exact ih _ _ _ _ _ _ hc
  | agg i _ ih =>
    intro a p L L' lv pl h
    obtain ⟨M, M', lv1, pl1, ⟨hjn, g1⟩, g2, g3, g4⟩ := ChainFrom.part _ _ _ _ _ _
      (fun j M M' lv pl ⟨hj, hl⟩ => Lay.le _ _ _ _ _ _ _ hl) h i.1 (Nat.zero_le _) (by omega)
    obtain ⟨L1, L1', lv2, pl2, k1, k2, k3, k4⟩ := ih _ _ _ _ _ _ g1
    refine ⟨L1, L1', lv2, pl2, ?_, by omega, by omega, fun l hl => g4 (k4 hl)⟩
    rw [← Nat.add_assoc, ← Nat.add_assoc]
    exact k1
  | arr i hi _ ih =>
    intro a p L L' lv pl h
    obtain ⟨M, M', lv1, pl1, g1, g2, g3, g4⟩ := ChainFrom.part _ _ _ _ _ _ (fun j => Lay.le _ _ _) h i (Nat.zero_le _) (by omega)
    obtain ⟨L1, L1', lv2, pl2, k1, k2, k3, k4⟩ := ih _ _ _ _ _ _ g1
    refine ⟨L1, L1', lv2, pl2, ?_, by omega, by omega, fun l hl => g4 (k4 hl)⟩
    rw [← Nat.add_assoc, ← Nat.add_assoc]
    exact k1

/-- `cnt` values of type `u` at `v` are laid out at `y`, using only the given leaves. -/
structure Laid (e : SEnv) (M N : Nat) (lv : List (Nat × Leaf)) (u : Ty) (v y : Nat) (cnt : Nat) : Prop where
  wf : u.WF
  al : u.Al M
  dvd : u.alignof ∣ y
  each : ∀ j, j < cnt → ∃ L1 L1' lv1 pl1, Lay e u (v + j * u.sizeof) (y + j * u.sizeof) L1 L1' lv1 pl1 ∧ lv1 ⊆ lv ∧ L1' ≤ N ∧
    y + cnt * u.sizeof ≤ L1

theorem Laid.mono {M N N' : Nat} {lv lv' : List (Nat × Leaf)} {u : Ty} {v y cnt : Nat} (h : Laid e M N lv u v y cnt) (h1 : N ≤ N')
    (h2 : lv ⊆ lv') : Laid e M N' lv' u v y cnt :=
  ⟨h.wf, h.al, h.dvd, fun j hj => by
    obtain ⟨L1, L1', lv1, pl1, a1, a2, a3, a4⟩ := h.each j hj
    exact ⟨L1, L1', lv1, pl1, a1, fun l hl => h2 (a2 hl), by omega, a4⟩⟩

theorem Laid.le {M N : Nat} {lv : List (Nat × Leaf)} {u u' : Ty} {v y cnt : Nat} (h : Laid e M N lv u v y cnt) (hle : Le M u u') :
    Laid e M N lv u' v y cnt :=
  ⟨hle.wf h.wf, hle.al h.al, by rw [← hle.geo.2]; exact h.dvd, fun j hj => by
    obtain ⟨L1, L1', lv1, pl1, a1, a2, a3, a4⟩ := h.each j hj
    rw [← hle.geo.1]
    exact ⟨L1, L1', lv1, pl1, hle.lay _ _ _ _ _ _ a1, a2, a3, a4⟩⟩

/-- Where a place comes from. -/
theorem Lay.places {M : Nat} : ∀ (t : Ty), t.WF → t.Al M → ∀ (a p L L' : Nat) (lv : List (Nat × Leaf)) (pl : List Place), t.alignof ∣ p →
    p + t.sizeof ≤ L → Lay e t a p L L' lv pl → ∀ g ∈ pl, ∃ u cnt, ObjT e.side t a g.exact g.v cnt u ∧ g.n = cnt * u.sizeof ∧
      (g.exact = true → cnt = 1) ∧ Laid e M L' lv u g.v g.y cnt := by
  intro t
  induction t with
  | int w => intro _ _ a p L L' lv pl _ _ h g hg; obtain ⟨rfl, rfl, rfl⟩ := h; simp at hg
  | blob s al => intro _ _ a p L L' lv pl _ _ h g hg; obtain ⟨rfl, rfl, rfl⟩ := h; simp at hg
  | ptr pt => intro _ _ a p L L' lv pl _ _ h g hg; obtain ⟨rfl, rfl, rfl⟩ := h; simp at hg
  | str => intro _ _ a p L L' lv pl _ _ h g hg; obtain ⟨rfl, _⟩ := h; simp at hg
  | vec sw ix t ih =>
    intro hw hM a p L L' lv pl _ hp h g hg
    have htp := Ty.pos_of_WF (t := t) hw.2
    rcases h with ⟨h0, rfl, rfl, rfl⟩ | ⟨hn, el, s, lv', pl', hel, hs, hals, hc, rfl, rfl⟩
    · simp at hg
    · rcases List.mem_append.1 hg with hg | hg
      · cases ix
        · simp at hg
        · simp only [if_true, List.mem_singleton] at hg
          subst hg
          refine ⟨t, rdN e.host e.mem (a + 8) sw, ⟨el, hel, Or.inl ⟨rfl, hn, rfl, rfl, rfl, rfl⟩⟩, rfl, (fun h => by cases h), hw.2, hM.2, hals,
            fun j hj => ?_⟩
          obtain ⟨K, K', lv1, pl1, g1, g2, g3, g4⟩ := ChainFrom.part _ _ _ _ _ _ (fun j => Lay.le t _ _) hc j (Nat.zero_le _) (by omega)
          exact ⟨K, K', lv1, pl1, g1, fun l hl => List.mem_append_right _ (g4 hl), g3, g2⟩
      · obtain ⟨j, K, K', lv1, pl1, j1, j2, g1, g2, g3, g4, g5⟩ := ChainFrom.place _ _ _ _ _ _ (fun j => Lay.le t _ _) hc g hg
        have hb := mul_bound (s := t.sizeof) (show j < rdN e.host e.mem (a + 8) sw by omega)
        obtain ⟨u, cnt, o1, o2, o3, o4⟩ := ih hw.2 hM.2 _ _ _ _ _ _ (Nat.dvd_add hals (Nat.dvd_trans htp.2.2 (Nat.dvd_mul_left _ _)))
          (by omega) g1 g g5
        exact ⟨u, cnt, ⟨el, hel, Or.inr ⟨j, by simp only [Side.nat, SEnv.side]; omega, o1⟩⟩, o2, o3,
          o4.mono g3 fun l hl => List.mem_append_right _ (g4 hl)⟩
  | uptr t ih =>
    intro hw hM a p L L' lv pl _ hp h g hg
    rcases h with ⟨h0, rfl, rfl, rfl⟩ | ⟨el, s, lv', pl', hel, hs, hals, hc, rfl, rfl⟩
    · simp at hg
    · rcases List.mem_cons.1 hg with hg | hg
      · subst hg
        refine ⟨t, 1, ⟨el, hel, Or.inl ⟨rfl, rfl, rfl, rfl⟩⟩, (Nat.one_mul _).symm, fun _ => rfl, hw, hM.2, hals, fun j hj => ?_⟩
        have : j = 0 := by omega
        subst this
        simp only [Nat.zero_mul, Nat.add_zero, Nat.one_mul]
        exact ⟨_, _, _, _, hc, fun l hl => List.mem_append_right _ hl, Nat.le_refl _, Nat.le_refl _⟩
      · obtain ⟨u, cnt, o1, o2, o3, o4⟩ := ih hw hM.2 _ _ _ _ _ _ hals (Nat.le_refl _) hc g hg
        exact ⟨u, cnt, ⟨el, hel, Or.inr o1⟩, o2, o3, o4.mono (Nat.le_refl _) fun l hl => List.mem_append_right _ hl⟩
  | hash t ih =>
    intro hw hM a p L L' lv pl _ hp h g hg
    have hw : t.WF := hw
    have htp := Ty.pos_of_WF (t := t) hw
    rcases h with ⟨hel, hcap, hsz, rfl, rfl, rfl⟩ | ⟨el, s, lv', hel, hct, hn, htab, hs, hals, hc, rfl⟩
    · simp at hg
    · obtain ⟨j, K, K', lv1, pl1, j1, j2, g1, g2, g3, g4, g5⟩ := ChainFrom.place _ _ _ _ _ _ (fun j => slot_le (Lay.le t _ _)) hc g hg
      have hb := mul_bound (s := t.sizeof) (show j < rdN e.host e.mem (a + 24) 8 by omega)
      by_cases hf : Full e.mem (el + rdN e.host e.mem (a + 24) 8 * t.sizeof) j
      · obtain ⟨u, cnt, o1, o2, o3, o4⟩ := ih hw hM.2 _ _ _ _ _ _ (Nat.dvd_add hals (Nat.dvd_trans htp.2.2 (Nat.dvd_mul_left _ _)))
          (by omega) (g1.1 hf) g g5
        exact ⟨u, cnt, ⟨el, _, hel, hct, j, by simp only [Side.nat, SEnv.side]; omega, hf, o1⟩, o2, o3,
          o4.mono g3 fun l hl => List.mem_append_right _ (List.mem_cons_of_mem _ (g4 hl))⟩
      · rw [(g1.2 hf).2.2] at g5
        simp at g5
  | opt t ih =>
    intro hw hM a p L L' lv pl hal hp h g hg
    have htp := Ty.pos_of_WF (t := t) hw
    simp only [Ty.sizeof, Ty.alignof] at hp hal
    rcases h with ⟨h0, rfl, rfl, rfl⟩ | ⟨h1, lv', hc, rfl⟩
    · simp at hg
    · obtain ⟨u, cnt, o1, o2, o3, o4⟩ := ih hw hM _ _ _ _ _ _ (Nat.dvd_add hal (Nat.dvd_refl _)) (by omega) hc g hg
      exact ⟨u, cnt, ⟨h1, o1⟩, o2, o3, o4.mono (Nat.le_refl _) fun l hl => List.mem_cons_of_mem _ hl⟩
  | var ib so s al n t ih =>
    intro hw hM a p L L' lv pl hal hp h g hg
    simp only [Ty.sizeof, Ty.alignof] at hp hal
    obtain ⟨i, lv', hi, hc, rfl⟩ := h
    obtain ⟨w1, w2, w3, w4, w5, w6, w7, w8, w9⟩ := hw
    obtain ⟨v1, v2, v3, v4⟩ := w9 i
    obtain ⟨u, cnt, o1, o2, o3, o4⟩ := ih i v1 (hM.2 i) _ _ _ _ _ _ (Nat.dvd_add (Nat.dvd_trans v4 hal) v3) (by omega) hc g hg
    exact ⟨u, cnt, ⟨i, hi, o1⟩, o2, o3, o4.mono (Nat.le_refl _) fun l hl => List.mem_cons_of_mem _ hl⟩
  | arr n t ih =>
    intro hw hM a p L L' lv pl hal hp h g hg
    have htp := Ty.pos_of_WF (t := t) hw.2
    simp only [Ty.sizeof, Ty.alignof] at hp hal
    obtain ⟨j, K, K', lv1, pl1, j1, j2, g1, g2, g3, g4, g5⟩ := ChainFrom.place _ _ _ _ _ _ (fun j => Lay.le t _ _) h g hg
    have hb := mul_bound (s := t.sizeof) (show j < n by omega)
    obtain ⟨u, cnt, o1, o2, o3, o4⟩ := ih hw.2 hM _ _ _ _ _ _ (Nat.dvd_add hal (Nat.dvd_trans htp.2.2 (Nat.dvd_mul_left _ _)))
      (by omega) g1 g g5
    exact ⟨u, cnt, ⟨j, by omega, o1⟩, o2, o3, o4.mono g3 g4⟩
  | idx t ih =>
    intro hw hM a p L L' lv pl hal hp h g hg
    obtain ⟨pl', hc, rfl⟩ := h
    rcases List.mem_cons.1 hg with hg | hg
    · subst hg
      refine ⟨t, 1, Or.inl ⟨rfl, rfl, rfl, rfl⟩, (Nat.one_mul _).symm, fun _ => rfl, hw, hM, hal, fun j hj => ?_⟩
      have : j = 0 := by omega
      subst this
      simp only [Nat.zero_mul, Nat.add_zero, Nat.one_mul]
      exact ⟨_, _, _, _, hc, fun l hl => hl, Nat.le_refl _, hp⟩
    · obtain ⟨u, cnt, o1, o2, o3, o4⟩ := ih hw hM _ _ _ _ _ _ hal hp hc g hg
      exact ⟨u, cnt, Or.inr o1, o2, o3, o4⟩
  | agg s al n off t ih =>
    intro hw hM a p L L' lv pl hal hp h g hg
    simp only [Ty.sizeof, Ty.alignof] at hp hal
    obtain ⟨j, K, K', lv1, pl1, j1, j2, ⟨hjn, g1⟩, g2, g3, g4, g5⟩ := ChainFrom.place _ _ _ _ _ _
      (fun j M M' lv pl ⟨hj, hl⟩ => Lay.le _ _ _ _ _ _ _ hl) h g hg
    obtain ⟨v1, v2, v3, v4⟩ := hw.2.2.2.1 ⟨j, hjn⟩
    obtain ⟨u, cnt, o1, o2, o3, o4⟩ := ih ⟨j, hjn⟩ v1 (hM.2 _) _ _ _ _ _ _ (Nat.dvd_add (Nat.dvd_trans v4 hal) v3) (by omega) g1 g g5
    exact ⟨u, cnt, ⟨⟨j, hjn⟩, o1⟩, o2, o3, o4.mono g3 g4⟩

/-- The object a pointer is resolved to is laid out, with the type of the pointer. -/
theorem Lay.pointee {M : Nat} {t : Ty} (hw : t.WF) (hM : t.Al M) {a p L L' : Nat} {lv : List (Nat × Leaf)} {pl : List Place}
    (hal : t.alignof ∣ p) (hp : p + t.sizeof ≤ L) (h : Lay e t a p L L' lv pl) {g : Place} (hg : g ∈ pl) {v y : Nat} (hcv : g.covers v y)
    {u : Ty} (hu : HasTy M e.side t a u v) : Laid e M L' lv u v y 1 := by
  obtain ⟨ty, cnt, o1, o2, o3, o4⟩ := Lay.places t hw hM a p L L' lv pl hal hp h g hg
  have hpos := Ty.pos_of_WF (t := ty) o4.wf
  unfold Place.covers at hcv
  have key : ∀ j o, j < cnt → v = g.v + j * ty.sizeof + o → y = g.y + j * ty.sizeof + o → SubLe M ty o u → Laid e M L' lv u v y 1 := by
    rintro j o hj hv hy ⟨u', hs, hle⟩
    refine Laid.le (u := u') ?_ hle
    obtain ⟨s1, s2, s3, s4⟩ := hs.geo o4.wf
    obtain ⟨L1, L1', lv1, pl1, a1, a2, a3, a4⟩ := o4.each j hj
    obtain ⟨L2, L2', lv2, pl2, b1, b2, b3, b4⟩ := Lay.sub hs _ _ _ _ _ _ a1
    have hb := mul_bound (s := ty.sizeof) hj
    refine ⟨s1, hs.al o4.al, ?_, fun i hi => ?_⟩
    · rw [hy]
      exact Nat.dvd_add (Nat.dvd_add (Nat.dvd_trans s3 o4.dvd) (Nat.dvd_trans s3 (Nat.dvd_trans hpos.2.2 (Nat.dvd_mul_left _ _)))) s4
    · have : i = 0 := by omega
      subst this
      simp only [Nat.zero_mul, Nat.add_zero, Nat.one_mul]
      rw [hv, hy]
      exact ⟨L2, L2', lv2, pl2, b1, fun l hl => a2 (b4 hl), by omega, by omega⟩
  cases hx : g.exact with
  | true =>
    rw [hx, if_pos rfl] at hcv
    rw [hx] at o1
    have := o3 hx
    exact key 0 0 (by omega) (by omega) (by omega) (hu.1 cnt ty (by rw [hcv.1]; exact o1))
  | false =>
    rw [hx, if_neg (by decide)] at hcv
    rw [hx] at o1
    have hlt : v - g.v < cnt * ty.sizeof := by omega
    have hdm := Nat.div_add_mod' (v - g.v) ty.sizeof
    refine key ((v - g.v) / ty.sizeof) ((v - g.v) % ty.sizeof) ?_ (by omega) (by omega) (hu.2 g.v cnt ty o1 hcv.1 (by omega))
    exact (Nat.div_lt_iff_lt_mul hpos.2.1).2 hlt

/-- The deep check of a laid out value does not fail. -/
theorem deep_acc (hk : Linked e d base N) {tys : Nat → Ty} {lv : List (Nat × Leaf)}
    (hG : ∀ x pt tg, G x pt tg → ∀ y, tg = some y → pt ≠ .void ∧ y ≤ N ∧
      (d.unchecked = false → y + (pointee d pt).1 ≤ N ∧ ((pointee d pt).2 = 0 ∨ (base + y) % (pointee d pt).2 = 0)))
    (hm : ∀ l ∈ lv, Fm e d base G m l)
    (hl : ∀ q x n, (q, Leaf.ptr x (.obj n)) ∈ lv → ∀ y, G x (.obj n) (some y) → ∃ v, Laid e base N lv (tys n) v y 1) :
    ∀ f n v y, Laid e base N lv (tys n) v y 1 → ∀ vis, Acc (deep d m tys f n (base + y) vis)
  | 0, n, v, y, _, vis => fun h => by cases h
  | f + 1, n, v, y, h, vis => by
    obtain ⟨L1, L1', lv1, pl1, a1, a2, a3, a4⟩ := h.each 0 (by omega)
    simp only [Nat.zero_mul, Nat.add_zero, Nat.one_mul] at a1 a4
    exact deepT_acc hk hG (tys n) h.wf h.al _ _ _ _ _ _ h.dvd a4 a3 a1 (fun l hl => hm l (a2 hl))
      (fun q x k hq z hz vis => by
        obtain ⟨w, hw⟩ := hl q x k (a2 hq) z hz
        exact deep_acc hk hG hm hl f k w z hw vis) vis

theorem Obj.objT {s : Side} {ex : Bool} {v n al : Nat} : ∀ (t : Ty), t.WF → ∀ a, Obj s t a ex v n al →
    ∃ cnt ty, ObjT s t a ex v cnt ty ∧ ty.WF ∧ n = cnt * ty.sizeof ∧ al = ty.alignof ∧ (ex = true → cnt = 1) := by
  intro t
  induction t with
  | int w => intro _ a h; cases h
  | blob s al => intro _ a h; cases h
  | ptr pt => intro _ a h; cases h
  | str => intro _ a h; cases h
  | vec sw ix t ih =>
    rintro hw a ⟨el, h1, ⟨h2, h3, h4, h5, h6, h7⟩ | ⟨i, hi, h2⟩⟩
    · exact ⟨_, t, ⟨el, h1, Or.inl ⟨h2, h3, h4, h5, rfl, rfl⟩⟩, hw.2, h6, h7, fun h => by rw [h4] at h; cases h⟩
    · obtain ⟨cnt, ty, k1, k2⟩ := ih hw.2 _ h2
      exact ⟨cnt, ty, ⟨el, h1, Or.inr ⟨i, hi, k1⟩⟩, k2⟩
  | uptr t ih =>
    rintro hw a ⟨el, h1, ⟨h2, h3, h4, h5⟩ | h2⟩
    · exact ⟨1, t, ⟨el, h1, Or.inl ⟨h2, h3, rfl, rfl⟩⟩, hw, by omega, h5, fun _ => rfl⟩
    · obtain ⟨cnt, ty, k1, k2⟩ := ih hw _ h2
      exact ⟨cnt, ty, ⟨el, h1, Or.inr k1⟩, k2⟩
  | hash t ih =>
    rintro hw a ⟨el, c, h1, h2, i, hi, hf, h3⟩
    obtain ⟨cnt, ty, k1, k2⟩ := ih hw _ h3
    exact ⟨cnt, ty, ⟨el, c, h1, h2, i, hi, hf, k1⟩, k2⟩
  | opt t ih =>
    rintro hw a ⟨h1, h2⟩
    obtain ⟨cnt, ty, k1, k2⟩ := ih hw _ h2
    exact ⟨cnt, ty, ⟨h1, k1⟩, k2⟩
  | var ib so s al n t ih =>
    rintro hw a ⟨i, h1, h2⟩
    obtain ⟨w1, w2, w3, w4, w5, w6, w7, w8, w9⟩ := hw
    obtain ⟨cnt, ty, k1, k2⟩ := ih i (w9 i).1 _ h2
    exact ⟨cnt, ty, ⟨i, h1, k1⟩, k2⟩
  | arr n t ih =>
    rintro hw a ⟨i, hi, h2⟩
    obtain ⟨cnt, ty, k1, k2⟩ := ih hw.2 _ h2
    exact ⟨cnt, ty, ⟨i, hi, k1⟩, k2⟩
  | idx t ih =>
    rintro hw a (⟨h2, h3, h4, h5⟩ | h2)
    · exact ⟨1, t, Or.inl ⟨h2, h3, rfl, rfl⟩, hw, by omega, h5, fun _ => rfl⟩
    · obtain ⟨cnt, ty, k1, k2⟩ := ih hw _ h2
      exact ⟨cnt, ty, Or.inr k1, k2⟩
  | agg s al n off t ih =>
    rintro hw a ⟨i, h2⟩
    obtain ⟨cnt, ty, k1, k2⟩ := ih i (hw.2.2.2.1 i).1 _ h2
    exact ⟨cnt, ty, ⟨i, k1⟩, k2⟩

/-- An object of the right type has the right size. -/
theorem HasTy.typed {M : Nat} {s : Side} {t : Ty} (hw : t.WF) {a v : Nat} {u : Ty} (h : HasTy M s t a u v) :
    Typed s t a u.sizeof u.alignof v := by
  refine ⟨fun n al ho => ?_, fun el n al ho h1 h2 => ?_⟩
  · obtain ⟨cnt, ty, k1, k2, k3, k4, k5⟩ := Obj.objT t hw a ho
    obtain ⟨u', hs, hle⟩ := h.1 cnt ty k1
    obtain ⟨g1, g2, g3, g4⟩ := hs.geo k2
    rw [k3, k4, k5 rfl, ← hle.geo.1, ← hle.geo.2]
    exact ⟨by omega, g3⟩
  · obtain ⟨cnt, ty, k1, k2, k3, k4, k5⟩ := Obj.objT t hw a ho
    rw [k3] at h2 ⊢
    have hpos := Ty.pos_of_WF (t := ty) k2
    obtain ⟨u', hs, hle⟩ := h.2 el cnt ty k1 h1 h2
    obtain ⟨g1, g2, g3, g4⟩ := hs.geo k2
    rw [← hle.geo.1, ← hle.geo.2]
    have hdm := Nat.div_add_mod' (v - el) ty.sizeof
    have hb := mul_bound (s := ty.sizeof) ((Nat.div_lt_iff_lt_mul hpos.2.1).2 (show v - el < cnt * ty.sizeof by omega))
    refine ⟨by omega, by rw [k4]; exact g3, ?_⟩
    rw [← hdm]
    exact Nat.dvd_add (Nat.dvd_trans g3 (Nat.dvd_trans hpos.2.2 (Nat.dvd_mul_left _ _))) g4

theorem Ptrs.mono {s : Side} {P Q : Nat → Nat → Prop} (h : ∀ n v, P n v → Q n v) : ∀ (t : Ty) (a : Nat), Ptrs s P t a → Ptrs s Q t a := by
  intro t
  induction t with
  | int w => exact fun _ _ => trivial
  | blob s al => exact fun _ _ => trivial
  | str => exact fun _ _ => trivial
  | ptr pt =>
    intro a hp
    cases pt with
    | void => trivial
    | obj n =>
      unfold Ptrs at hp ⊢
      cases hx : s.ptr a with
      | none => trivial
      | some v =>
        rw [hx] at hp
        exact h n v hp
  | vec sw ix t ih => exact fun a hp el hel i hi => ih _ (hp el hel i hi)
  | uptr t ih => exact fun a hp el hel => ih _ (hp el hel)
  | hash t ih => exact fun a hp el c hel hc i hi hf => ih _ (hp el c hel hc i hi hf)
  | opt t ih => exact fun a hp h => ih _ (hp h)
  | var ib so s al n t ih => exact fun a hp i hi => ih i _ (hp i hi)
  | arr n t ih => exact fun a hp i hi => ih _ (hp i hi)
  | idx t ih => exact fun a hp => ih _ hp
  | agg s al n off t ih => exact fun a hp i => ih i _ (hp i)

end Cista.Ser

import Verif.Ser.Spec

/-!
# Round trip: from the layout to equality of values
-/
set_option linter.unusedSimpArgs false
set_option linter.unusedSectionVars false

namespace Cista.Ser

variable {e : SEnv} {d : DEnv} {base N : Nat} {G : Option Nat → Pointee → Option Nat → Prop} {m : Mem}

theorem ChainFrom.le {R : Nat → Rel} : ∀ (k i L L' : Nat) (lv : List (Nat × Leaf)) (pl : List Place),
    (∀ j, ∀ M M' lv pl, R j M M' lv pl → M ≤ M') → ChainFrom R i k L L' lv pl → L ≤ L'
  | 0, i, L, L', lv, pl, _, h => by
    obtain ⟨rfl, rfl, rfl⟩ := h
    exact Nat.le_refl _
  | k + 1, i, L, L', lv, pl, hR, h => by
    obtain ⟨M, lv1, lv2, pl1, pl2, h1, h2, rfl, rfl⟩ := h
    exact Nat.le_trans (hR _ _ _ _ _ h1) (ChainFrom.le k _ _ _ _ _ hR h2)

/-- Every part ends before the end. -/
theorem ChainFrom.bound {R : Nat → Rel} {B : Nat} : ∀ (k i L L' : Nat) (lv : List (Nat × Leaf)) (pl : List Place),
    (∀ j, ∀ M M' lv pl, R j M M' lv pl → M ≤ M') → L' ≤ B → ChainFrom R i k L L' lv pl →
    ChainFrom (fun j M M' lv pl => R j M M' lv pl ∧ M' ≤ B) i k L L' lv pl
  | 0, i, L, L', lv, pl, _, _, h => h
  | k + 1, i, L, L', lv, pl, hR, hB, h => by
    obtain ⟨M, lv1, lv2, pl1, pl2, h1, h2, rfl, rfl⟩ := h
    exact ⟨M, lv1, lv2, pl1, pl2, ⟨h1, Nat.le_trans (ChainFrom.le k _ _ _ _ _ hR h2) hB⟩, ChainFrom.bound k _ _ _ _ _ hR hB h2, rfl, rfl⟩

theorem slot_le {F : Prop} {R : Rel} (hR : ∀ M M' lv pl, R M M' lv pl → M ≤ M') :
    ∀ M M' lv pl, (F → R M M' lv pl) ∧ (¬ F → M' = M ∧ lv = [] ∧ pl = []) → M ≤ M' := by
  intro M M' lv pl h
  by_cases hf : F
  · exact hR _ _ _ _ (h.1 hf)
  · exact Nat.le_of_eq (h.2 hf).1.symm

theorem Lay.le : ∀ (t : Ty) (a p L L' : Nat) (lv : List (Nat × Leaf)) (pl : List Place), Lay e t a p L L' lv pl → L ≤ L' := by
  intro t
  induction t with
  | int w => intro a p L L' lv pl h; obtain ⟨rfl, _⟩ := h; exact Nat.le_refl _
  | blob s al => intro a p L L' lv pl h; obtain ⟨rfl, _⟩ := h; exact Nat.le_refl _
  | ptr pt => intro a p L L' lv pl h; obtain ⟨rfl, _⟩ := h; exact Nat.le_refl _
  | vec sw ix t ih =>
    intro a p L L' lv pl h
    rcases h with ⟨h0, rfl, rfl, rfl⟩ | ⟨hn, el, s, lv', pl', hel, hs, hals, hc, rfl, rfl⟩
    · exact Nat.le_refl _
    · have := ChainFrom.le _ _ _ _ _ _ (fun j => ih _ _) hc
      omega
  | str =>
    intro a p L L' lv pl h
    obtain ⟨rfl, h⟩ := h
    rcases h with ⟨_, rfl, _⟩ | ⟨_, _, _, rfl, _⟩ | ⟨_, _, _, _, rfl, _⟩ <;> omega
  | uptr t ih =>
    intro a p L L' lv pl h
    rcases h with ⟨h0, rfl, rfl, rfl⟩ | ⟨el, s, lv', pl', hel, hs, hals, hc, rfl, rfl⟩
    · exact Nat.le_refl _
    · have := ih _ _ _ _ _ _ hc
      omega
  | hash t ih =>
    intro a p L L' lv pl h
    rcases h with ⟨_, _, _, rfl, _, _⟩ | ⟨el, s, lv', hel, hct, hn, htab, hs, hals, hc, rfl⟩
    · omega
    · have := ChainFrom.le _ _ _ _ _ _ (fun j => slot_le (fun _ _ _ _ h => ih _ _ _ _ _ _ h)) hc
      omega
  | opt t ih =>
    intro a p L L' lv pl h
    rcases h with ⟨h0, rfl, rfl, rfl⟩ | ⟨h1, lv', hc, rfl⟩
    · exact Nat.le_refl _
    · exact ih _ _ _ _ _ _ hc
  | var ib so s al n t ih =>
    intro a p L L' lv pl h
    obtain ⟨i, lv', hi, hc, rfl⟩ := h
    exact ih i _ _ _ _ _ _ hc
  | arr n t ih => intro a p L L' lv pl h; exact ChainFrom.le _ _ _ _ _ _ (fun j => ih _ _) h
  | idx t ih =>
    intro a p L L' lv pl h
    obtain ⟨pl', hc, rfl⟩ := h
    exact ih _ _ _ _ _ _ hc
  | agg s al n off t ih =>
    intro a p L L' lv pl h
    exact ChainFrom.le _ _ _ _ _ _ (fun j M M' lv pl ⟨hj, hl⟩ => ih _ _ _ _ _ _ _ hl) h

theorem Fm.int {q a w : Nat} (h : Fm e d base G m (q, .int (rd e.mem a w))) : (d.side m).nat (base + q) w = e.side.nat a w := by
  have h' : rd m (base + q) (rd e.mem a w).length = Ser.cv (cross e d) (rd e.mem a w) := h
  rw [length_rd] at h'
  show ofHost d.host (rd m (base + q) w) = ofHost e.host (rd e.mem a w)
  rw [h', ofHost_cross]

theorem Fm.own (hk : Linked e d base N) {q : Nat} {s : Option Nat} (hq : q + 8 ≤ N) (hs : ∀ y, s = some y → y ≤ N)
    (h : Fm e d base G m (q, .own s)) : (d.side m).ptr (base + q) = s.map (base + ·) :=
  ptrAt_bytes hk (by have := hk.fits; omega) hs h

theorem Fm.byte {q : Nat} {b : Byte} (h : Fm e d base G m (q, .raw [b])) : m (base + q) = b := byte_of_rd h

theorem Fm.raw {q a w : Nat} (h : Fm e d base G m (q, .raw (rd e.mem a w))) : rd m (base + q) w = rd e.mem a w := by
  have h' : rd m (base + q) (rd e.mem a w).length = rd e.mem a w := h
  rwa [length_rd] at h'

/-- Members of a vector in memory. -/
theorem vec_mem (hk : Linked e d base N) {sw a p : Nat} {s : Option Nat} (hq : p + 8 ≤ N) (hs : ∀ y, s = some y → y ≤ N)
    (h : ∀ l ∈ vecLeaves e sw a p s, Fm e d base G m l) :
    (d.side m).ptr (base + p) = s.map (base + ·) ∧ (d.side m).nat (base + p + 8 + sw) sw = e.side.nat (a + 8) sw ∧
    (d.side m).nat (base + p + 8) sw = e.side.nat (a + 8) sw ∧ m (base + p + 8 + 2 * sw) = 0#8 := by
  refine ⟨Fm.own hk hq hs (h (p, .own s) ?_), ?_, ?_, ?_⟩
  · simp [vecLeaves]
  · rw [show base + p + 8 + sw = base + (p + 8 + sw) by omega]
    exact Fm.int (h (p + 8 + sw, .int (rd e.mem (a + 8) sw)) (by simp [vecLeaves]))
  · rw [show base + p + 8 = base + (p + 8) by omega]
    exact Fm.int (h (p + 8, .int (rd e.mem (a + 8) sw)) (by simp [vecLeaves]))
  · rw [show base + p + 8 + 2 * sw = base + (p + 8 + 2 * sw) by omega]
    exact Fm.byte (h (p + 8 + 2 * sw, .raw [0#8]) (by simp [vecLeaves]))

/-- Members of a long string in memory. -/
theorem str_mem (hk : Linked e d base N) {a p : Nat} {s : Option Nat} (hq : p + 16 ≤ N) (hs : ∀ y, s = some y → y ≤ N)
    (h : ∀ l ∈ strLeaves e a p s, Fm e d base G m l) :
    m (base + p) = 0#8 ∧ (d.side m).ptr (base + p + 8) = s.map (base + ·) ∧ (d.side m).nat (base + p + 4) 4 = e.side.nat (a + 4) 4 ∧
    m (base + p + 1) = 0#8 := by
  refine ⟨Fm.byte (h (p, .raw [0#8]) (by simp [strLeaves])), ?_, ?_, ?_⟩
  · rw [show base + p + 8 = base + (p + 8) by omega]
    exact Fm.own hk (by omega) hs (h (p + 8, .own s) (by simp [strLeaves]))
  · rw [show base + p + 4 = base + (p + 4) by omega]
    exact Fm.int (h (p + 4, .int (rd e.mem (a + 4) 4)) (by simp [strLeaves]))
  · rw [show base + p + 1 = base + (p + 1) by omega]
    exact Fm.byte (h (p + 1, .raw [0#8]) (by simp [strLeaves]))

/-- Members of a hash table in memory. -/
theorem hash_mem (hk : Linked e d base N) {a p ctrl : Nat} {s : Option Nat} (hq : p + 48 ≤ N) (hs : ∀ y, s = some y → y ≤ N) (hc : ctrl ≤ N)
    (h : ∀ l ∈ hashLeaves e a p s ctrl, Fm e d base G m l) :
    (d.side m).ptr (base + p) = s.map (base + ·) ∧ (d.side m).ptr (base + p + 8) = some (base + ctrl) ∧ m (base + p + 40) = 0#8 ∧
    (d.side m).nat (base + p + 16) 8 = e.side.nat (a + 16) 8 ∧ (d.side m).nat (base + p + 24) 8 = e.side.nat (a + 24) 8 ∧
    (d.side m).nat (base + p + 32) 8 = e.side.nat (a + 32) 8 := by
  refine ⟨Fm.own hk (by omega) hs (h (p, .own s) (by simp [hashLeaves])), ?_, ?_, ?_, ?_, ?_⟩
  · rw [show base + p + 8 = base + (p + 8) by omega]
    exact Fm.own hk (s := some ctrl) (by omega) (fun y hy => by injection hy with hy; omega) (h (p + 8, .own (some ctrl)) (by simp [hashLeaves]))
  · rw [show base + p + 40 = base + (p + 40) by omega]
    exact Fm.byte (h (p + 40, .raw [0#8]) (by simp [hashLeaves]))
  · rw [show base + p + 16 = base + (p + 16) by omega]
    exact Fm.int (h (p + 16, .int (rd e.mem (a + 16) 8)) (by simp [hashLeaves]))
  · rw [show base + p + 24 = base + (p + 24) by omega]
    exact Fm.int (h (p + 24, .int (rd e.mem (a + 24) 8)) (by simp [hashLeaves]))
  · rw [show base + p + 32 = base + (p + 32) by omega]
    exact Fm.int (h (p + 32, .int (rd e.mem (a + 32) 8)) (by simp [hashLeaves]))

/-- A value laid out in memory equals its source. -/
theorem Lay.same {R : Nat → Option Nat → Prop} (hk : Linked e d base N)
    (hN : ∀ x pt tg, G x pt tg → ∀ y, tg = some y → y ≤ N)
    (hR : ∀ x pt tg, G x pt tg → match pt, x with
      | .void, _ => tg = none
      | .obj _, none => tg = none
      | .obj _, some v => R v (tg.map (base + ·))) :
    ∀ (t : Ty), t.WF → ∀ (a p L L' : Nat) (lv : List (Nat × Leaf)) (pl : List Place), p + t.sizeof ≤ N → L' ≤ N →
    Lay e t a p L L' lv pl → (∀ l ∈ lv, Fm e d base G m l) → Same e.side (d.side m) R t a (base + p) := by
  intro t
  induction t with
  | int w =>
    intro _ a p L L' lv pl hp hL h hm
    obtain ⟨rfl, rfl, rfl⟩ := h
    exact Fm.int (hm _ List.mem_cons_self)
  | blob s al =>
    intro _ a p L L' lv pl hp hL h hm
    obtain ⟨rfl, rfl, rfl⟩ := h
    exact Fm.raw (hm _ List.mem_cons_self)
  | ptr pt =>
    intro _ a p L L' lv pl hp hL h hm
    obtain ⟨rfl, rfl, rfl⟩ := h
    obtain ⟨tg, h1, h2⟩ := hm _ List.mem_cons_self
    have h3 : (d.side m).ptr (base + p) = tg.map (base + ·) :=
      ptrAt_bytes hk (by have := hk.fits; simp only [Ty.sizeof] at hp; omega) (hN _ _ _ h2) h1
    have h4 := hR _ _ _ h2
    unfold Same
    rw [h3, show e.side.ptr a = ptrAt e.host e.raw e.mem a from rfl]
    cases pt with
    | void =>
      have h4 : tg = none := h4
      rw [h4]; rfl
    | obj n =>
      cases hx : ptrAt e.host e.raw e.mem a with
      | none =>
        rw [hx] at h4
        have h4 : tg = none := h4
        rw [h4]; rfl
      | some v =>
        rw [hx] at h4
        exact h4
  | vec sw ix t ih =>
    intro hw a p L L' lv pl hp hL h hm
    simp only [Ty.sizeof] at hp
    rcases h with ⟨h0, rfl, rfl, rfl⟩ | ⟨hn, el, s, lv', pl', hel, hs, hals, hc, rfl, rfl⟩
    · obtain ⟨m1, m2, m3, m4⟩ := vec_mem hk (by omega) (fun y hy => by cases hy) hm
      exact ⟨m3, m2, m4, Or.inl ⟨h0, m1⟩⟩
    · have hle := ChainFrom.le _ _ _ _ _ _ (fun j => Lay.le t _ _) hc
      obtain ⟨m1, m2, m3, m4⟩ := vec_mem hk (s := some s) (by omega) (fun y hy => by injection hy with hy; omega)
        fun l hl => hm l (List.mem_append_left _ hl)
      refine ⟨m3, m2, m4, Or.inr ⟨el, base + s, hel, m1, fun i hi => ?_⟩⟩
      refine ChainFrom.each (A := Fm e d base G m) (C := fun i => Same e.side (d.side m) R t (el + i * t.sizeof) (base + s + i * t.sizeof))
        _ 0 _ _ _ _ ?_ (ChainFrom.bound (B := N) _ _ _ _ _ _ (fun j => Lay.le t _ _) hL hc) (fun l hl => hm l (List.mem_append_right _ hl)) i
        (Nat.zero_le _) (by simp only [Side.nat, SEnv.side] at hi; omega)
      intro j _ hj M M' lv'' pl'' hl hA
      have hb := mul_bound (s := t.sizeof) (show j < rdN e.host e.mem (a + 8) sw by omega)
      rw [Nat.add_assoc]
      exact ih hw.2 _ _ _ _ _ _ (by omega) hl.2 hl.1 hA
  | str =>
    intro hw a p L L' lv pl hp hL h hm
    simp only [Ty.sizeof] at hp
    obtain ⟨rfl, h⟩ := h
    rcases h with ⟨h1, rfl, rfl⟩ | ⟨h1, h2, h3, rfl, rfl⟩ | ⟨h1, h2, x, hx, rfl, rfl⟩
    · have hr := Fm.raw (hm _ List.mem_cons_self)
      have h0 := rd_eq_iff.1 hr 0 (by omega)
      exact ⟨h0, Or.inl ⟨h1, hr⟩⟩
    · obtain ⟨m1, m2, m3, m4⟩ := str_mem hk (by omega) (fun y hy => by cases hy) hm
      exact ⟨m1.trans h1.symm, Or.inr ⟨h1, m4, m3, Or.inl ⟨h3, m2⟩⟩⟩
    · obtain ⟨m1, m2, m3, m4⟩ := str_mem hk (s := some L) (by omega) (fun y hy => by injection hy with hy; omega)
        fun l hl => hm l (List.mem_append_left _ hl)
      refine ⟨m1.trans h1.symm, Or.inr ⟨h1, m4, m3, Or.inr ⟨x, base + L, hx, m2, ?_⟩⟩⟩
      exact Fm.raw (hm _ (List.mem_append_right _ List.mem_cons_self))
  | uptr t ih =>
    intro hw a p L L' lv pl hp hL h hm
    simp only [Ty.sizeof] at hp
    rcases h with ⟨h0, rfl, rfl, rfl⟩ | ⟨el, s, lv', pl', hel, hs, hals, hc, rfl, rfl⟩
    · have m1 := Fm.own hk (q := p) (s := none) (by omega) (fun y hy => by cases hy) (hm (p, .own none) (by simp))
      have m2 : m (base + p + 8) = 0#8 := by
        rw [show base + p + 8 = base + (p + 8) by omega]
        exact Fm.byte (hm (p + 8, .raw [0#8]) (by simp))
      exact ⟨m2, Or.inl ⟨h0, m1⟩⟩
    · have hle := Lay.le t _ _ _ _ _ _ hc
      have m1 := Fm.own hk (q := p) (s := some s) (by omega) (fun y hy => by injection hy with hy; omega) (hm (p, .own (some s)) (by simp))
      have m2 : m (base + p + 8) = 0#8 := by
        rw [show base + p + 8 = base + (p + 8) by omega]
        exact Fm.byte (hm (p + 8, .raw [0#8]) (by simp))
      exact ⟨m2, Or.inr ⟨el, base + s, hel, m1, ih hw _ _ _ _ _ _ (by omega) hL hc fun l hl => hm l (List.mem_append_right _ hl)⟩⟩
  | hash t ih =>
    intro hw a p L L' lv pl hp hL h hm
    simp only [Ty.sizeof] at hp
    rcases h with ⟨hel, hcap, hsz, rfl, rfl, rfl⟩ | ⟨el, s, lv', hel, hct, hn, htab, hs, hals, hc, rfl⟩
    · obtain ⟨m1, m2, m3, m4, m5, m6⟩ := hash_mem hk (s := none) (ctrl := L) (by omega) (fun y hy => by cases hy) (by omega)
        fun l hl => hm l (List.mem_append_left _ hl)
      have m7 : rd m (base + L) 16 = emptyGroup := hm (L, .raw emptyGroup) (by simp)
      exact ⟨m4, m5, m6, m3, Or.inl ⟨hel, hcap, hsz, m1, base + L, m2, m7⟩⟩
    · have hle := ChainFrom.le _ _ _ _ _ _ (fun j => slot_le (Lay.le t _ _)) hc
      obtain ⟨m1, m2, m3, m4, m5, m6⟩ := hash_mem hk (s := some s) (ctrl := s + rdN e.host e.mem (a + 24) 8 * t.sizeof) (by omega)
        (fun y hy => by injection hy with hy; omega) (by omega) fun l hl => hm l (List.mem_append_left _ hl)
      have m7 := Fm.raw (hm (s + rdN e.host e.mem (a + 24) 8 * t.sizeof,
        .raw (rd e.mem (el + rdN e.host e.mem (a + 24) 8 * t.sizeof) (rdN e.host e.mem (a + 24) 8 + 9))) (by simp))
      rw [← Nat.add_assoc] at m2 m7
      refine ⟨m4, m5, m6, m3, Or.inr ⟨el, base + s, hel, m1, hct, m2, m7, fun i hi hf => ?_⟩⟩
      refine ChainFrom.each (A := Fm e d base G m) (C := fun i => Full e.mem (el + rdN e.host e.mem (a + 24) 8 * t.sizeof) i →
        Same e.side (d.side m) R t (el + i * t.sizeof) (base + s + i * t.sizeof))
        _ 0 _ _ _ _ ?_ (ChainFrom.bound (B := N) _ _ _ _ _ _ (fun j => slot_le (Lay.le t _ _)) hL hc)
        (fun l hl => hm l (List.mem_append_right _ (List.mem_cons_of_mem _ hl))) i
        (Nat.zero_le _) (by simp only [Side.nat, SEnv.side] at hi; omega) hf
      intro j _ hj M M' lv'' pl'' hl hA hf
      have hb := mul_bound (s := t.sizeof) (show j < rdN e.host e.mem (a + 24) 8 by omega)
      rw [Nat.add_assoc]
      exact ih hw _ _ _ _ _ _ (by omega) hl.2 (hl.1.1 hf) hA
  | opt t ih =>
    intro hw a p L L' lv pl hp hL h hm
    simp only [Ty.sizeof] at hp
    rcases h with ⟨h0, rfl, rfl, rfl⟩ | ⟨h1, lv', hc, rfl⟩
    · have m1 := Fm.byte (hm _ List.mem_cons_self)
      exact ⟨m1.trans h0.symm, Or.inl h0⟩
    · have m1 := Fm.byte (hm _ List.mem_cons_self)
      refine ⟨m1.trans h1.symm, Or.inr ⟨h1, ?_⟩⟩
      rw [Nat.add_assoc]
      exact ih hw _ _ _ _ _ _ (by omega) hL hc fun l hl => hm l (List.mem_cons_of_mem _ hl)
  | var ib so s al n t ih =>
    intro hw a p L L' lv pl hp hL h hm
    simp only [Ty.sizeof] at hp
    obtain ⟨i, lv', hi, hc, rfl⟩ := h
    obtain ⟨_, _, _, _, _, _, _, _, hwi⟩ := hw
    obtain ⟨w1, w2, w3, w4⟩ := hwi i
    refine ⟨Fm.int (hm _ List.mem_cons_self), i, hi, ?_⟩
    rw [Nat.add_assoc]
    exact ih i w1 _ _ _ _ _ _ (by omega) hL hc fun l hl => hm l (List.mem_cons_of_mem _ hl)
  | arr n t ih =>
    intro hw a p L L' lv pl hp hL h hm i hi
    simp only [Ty.sizeof] at hp
    refine ChainFrom.each (A := Fm e d base G m) (C := fun i => Same e.side (d.side m) R t (a + i * t.sizeof) (base + p + i * t.sizeof))
      _ 0 _ _ _ _ ?_ (ChainFrom.bound (B := N) _ _ _ _ _ _ (fun j => Lay.le t _ _) hL h) hm i (Nat.zero_le _) (by omega)
    intro j _ hj M M' lv'' pl'' hl hA
    have hb := mul_bound (s := t.sizeof) (show j < n by omega)
    rw [Nat.add_assoc]
    exact ih hw.2 _ _ _ _ _ _ (by omega) hl.2 hl.1 hA
  | idx t ih =>
    intro hw a p L L' lv pl hp hL h hm
    obtain ⟨pl', hc, rfl⟩ := h
    exact ih hw _ _ _ _ _ _ hp hL hc hm
  | agg s al n off t ih =>
    intro hw a p L L' lv pl hp hL h hm i
    simp only [Ty.sizeof] at hp
    refine ChainFrom.each (A := Fm e d base G m)
      (C := fun i => ∀ h : i < n, Same e.side (d.side m) R (t ⟨i, h⟩) (a + off ⟨i, h⟩) (base + p + off ⟨i, h⟩))
      _ 0 _ _ _ _ ?_ (ChainFrom.bound (B := N) _ _ _ _ _ _ (fun j M M' lv pl ⟨hj, hl⟩ => Lay.le _ _ _ _ _ _ _ hl) hL h) hm i.1 (Nat.zero_le _)
      (by have := i.2; omega) i.2
    intro j _ hj M M' lv'' pl'' hl hA hjn
    obtain ⟨⟨_, hl⟩, hM⟩ := hl
    obtain ⟨w1, w2, _⟩ := hw.2.2.2.1 ⟨j, hjn⟩
    rw [Nat.add_assoc]
    exact ih _ w1 _ _ _ _ _ _ (by omega) hM hl hA

/-- The corresponding addresses are the places. -/
theorem Lay.corr (hk : Linked e d base N) (v y : Nat) :
    ∀ (t : Ty), t.WF → ∀ (a p L L' : Nat) (lv : List (Nat × Leaf)) (pl : List Place), p + t.sizeof ≤ N → L' ≤ N →
    Lay e t a p L L' lv pl → (∀ l ∈ lv, Fm e d base G m l) →
    (Corr e.side (d.side m) t a (base + p) v y ↔ ∃ g ∈ pl, ∃ z, g.covers v z ∧ y = base + z) := by
  have hnil : ∀ {P : Place → Prop}, False ↔ ∃ g ∈ ([] : List Place), P g := by
    intro P
    constructor
    · exact False.elim
    · rintro ⟨g, hg, _⟩; simp at hg
  intro t
  induction t with
  | int w =>
    intro _ a p L L' lv pl hp hL h hm
    obtain ⟨rfl, rfl, rfl⟩ := h
    exact hnil
  | blob s al =>
    intro _ a p L L' lv pl hp hL h hm
    obtain ⟨rfl, rfl, rfl⟩ := h
    exact hnil
  | ptr pt =>
    intro _ a p L L' lv pl hp hL h hm
    obtain ⟨rfl, rfl, rfl⟩ := h
    exact hnil
  | vec sw ix t ih =>
    intro hw a p L L' lv pl hp hL h hm
    simp only [Ty.sizeof] at hp
    rcases h with ⟨h0, rfl, rfl, rfl⟩ | ⟨hn, el, s, lv', pl', hel, hs, hals, hc, rfl, rfl⟩
    · obtain ⟨m1, m2, m3, m4⟩ := vec_mem hk (by omega) (fun y hy => by cases hy) hm
      constructor
      · rintro ⟨el, el', _, h2, _⟩
        rw [m1] at h2
        cases h2
      · rintro ⟨g, hg, _⟩; simp at hg
    · have hle := ChainFrom.le _ _ _ _ _ _ (fun j => Lay.le t _ _) hc
      obtain ⟨m1, m2, m3, m4⟩ := vec_mem hk (s := some s) (by omega) (fun y hy => by injection hy with hy; omega)
        fun l hl => hm l (List.mem_append_left _ hl)
      have hch := ChainFrom.any (A := Fm e d base G m) (B := fun g => ∃ z, g.covers v z ∧ y = base + z)
        (C := fun i => Corr e.side (d.side m) t (el + i * t.sizeof) (base + s + i * t.sizeof) v y)
        _ 0 _ _ _ _ (fun j _ hj M M' lv'' pl'' hl hA => by
          have hb := mul_bound (s := t.sizeof) (show j < rdN e.host e.mem (a + 8) sw by omega)
          rw [Nat.add_assoc]
          exact ih hw.2 _ _ _ _ _ _ (by omega) hl.2 hl.1 hA)
        (ChainFrom.bound (B := N) _ _ _ _ _ _ (fun j => Lay.le t _ _) hL hc) (fun l hl => hm l (List.mem_append_right _ hl))
      constructor
      · rintro ⟨el1, el2, h1, h2, h3⟩
        rw [show e.side.ptr a = some el from hel] at h1
        rw [m1] at h2
        simp only [Option.map_some, Option.some.injEq] at h1 h2
        subst h1; subst h2
        rcases h3 with ⟨hix, k1, k2, k3⟩ | ⟨i, hi, hcor⟩
        · refine ⟨⟨false, el, s, rdN e.host e.mem (a + 8) sw * t.sizeof, t.alignof⟩, List.mem_append_left _ (by simp [hix]), s + (v - el), ?_, by omega⟩
          exact ⟨k1, k2, rfl⟩
        · obtain ⟨g, hg, hh⟩ := hch.1 ⟨i, Nat.zero_le _, by simp only [Side.nat, SEnv.side] at hi; omega, hcor⟩
          exact ⟨g, List.mem_append_right _ hg, hh⟩
      · rintro ⟨g, hg, z, hz, hy⟩
        refine ⟨el, base + s, hel, m1, ?_⟩
        rcases List.mem_append.1 hg with hg | hg
        · left
          cases ix
          · simp at hg
          · simp only [if_true, List.mem_singleton] at hg
            subst hg
            obtain ⟨k1, k2, k3⟩ := hz
            simp only at k1 k2 k3
            exact ⟨rfl, k1, k2, by omega⟩
        · obtain ⟨i, _, hi, hcor⟩ := hch.2 ⟨g, hg, z, hz, hy⟩
          exact Or.inr ⟨i, by simp only [Side.nat, SEnv.side]; omega, hcor⟩
  | str =>
    intro hw a p L L' lv pl hp hL h hm
    obtain ⟨rfl, h⟩ := h
    exact hnil
  | uptr t ih =>
    intro hw a p L L' lv pl hp hL h hm
    simp only [Ty.sizeof] at hp
    rcases h with ⟨h0, rfl, rfl, rfl⟩ | ⟨el, s, lv', pl', hel, hs, hals, hc, rfl, rfl⟩
    · constructor
      · rintro ⟨el, el', h1, _⟩
        rw [show e.side.ptr a = none from h0] at h1
        cases h1
      · rintro ⟨g, hg, _⟩; simp at hg
    · have hle := Lay.le t _ _ _ _ _ _ hc
      have m1 := Fm.own hk (q := p) (s := some s) (by omega) (fun y hy => by injection hy with hy; omega) (hm (p, .own (some s)) (by simp))
      have hch := ih hw _ _ _ _ _ _ (by omega) hL hc fun l hl => hm l (List.mem_append_right _ hl)
      constructor
      · rintro ⟨el1, el2, h1, h2, h3⟩
        rw [show e.side.ptr a = some el from hel] at h1
        rw [m1] at h2
        simp only [Option.map_some, Option.some.injEq] at h1 h2
        subst h1; subst h2
        rcases h3 with ⟨k1, k2⟩ | hcor
        · exact ⟨_, List.mem_cons_self, s, ⟨k1, rfl⟩, k2⟩
        · obtain ⟨g, hg, hh⟩ := hch.1 hcor
          exact ⟨g, List.mem_cons_of_mem _ hg, hh⟩
      · rintro ⟨g, hg, z, hz, hy⟩
        refine ⟨el, base + s, hel, m1, ?_⟩
        rcases List.mem_cons.1 hg with hg | hg
        · subst hg
          obtain ⟨k1, k2⟩ := hz
          simp only at k1 k2
          exact Or.inl ⟨k1, by omega⟩
        · exact Or.inr (hch.2 ⟨g, hg, z, hz, hy⟩)
  | hash t ih =>
    intro hw a p L L' lv pl hp hL h hm
    simp only [Ty.sizeof] at hp
    rcases h with ⟨hel, hcap, hsz, rfl, rfl, rfl⟩ | ⟨el, s, lv', hel, hct, hn, htab, hs, hals, hc, rfl⟩
    · constructor
      · rintro ⟨el, el', c, h1, _⟩
        rw [show e.side.ptr a = none from hel] at h1
        cases h1
      · rintro ⟨g, hg, _⟩; simp at hg
    · have hle := ChainFrom.le _ _ _ _ _ _ (fun j => slot_le (Lay.le t _ _)) hc
      obtain ⟨m1, -⟩ := hash_mem hk (s := some s) (ctrl := s + rdN e.host e.mem (a + 24) 8 * t.sizeof) (by omega)
        (fun y hy => by injection hy with hy; omega) (by omega) fun l hl => hm l (List.mem_append_left _ hl)
      have hch := ChainFrom.any (A := Fm e d base G m) (B := fun g => ∃ z, g.covers v z ∧ y = base + z)
        (C := fun i => Full e.mem (el + rdN e.host e.mem (a + 24) 8 * t.sizeof) i ∧
          Corr e.side (d.side m) t (el + i * t.sizeof) (base + s + i * t.sizeof) v y)
        _ 0 _ _ _ _ (fun j _ hj M M' lv'' pl'' hl hA => by
          have hb := mul_bound (s := t.sizeof) (show j < rdN e.host e.mem (a + 24) 8 by omega)
          rw [Nat.add_assoc]
          by_cases hf : Full e.mem (el + rdN e.host e.mem (a + 24) 8 * t.sizeof) j
          · rw [← ih hw _ _ _ _ _ _ (by omega) hl.2 (hl.1.1 hf) hA]
            exact ⟨fun h => h.2, fun h => ⟨hf, h⟩⟩
          · rw [(hl.1.2 hf).2.2]
            constructor
            · exact fun h => absurd h.1 hf
            · rintro ⟨g, hg, _⟩; simp at hg)
        (ChainFrom.bound (B := N) _ _ _ _ _ _ (fun j => slot_le (Lay.le t _ _)) hL hc)
        (fun l hl => hm l (List.mem_append_right _ (List.mem_cons_of_mem _ hl)))
      rw [← hch]
      constructor
      · rintro ⟨el1, el2, c, h1, h2, h3, i, hi, hf, hcor⟩
        rw [show e.side.ptr a = some el from hel] at h1
        rw [m1] at h2
        rw [show e.side.ptr (a + 8) = _ from hct] at h3
        simp only [Option.map_some, Option.some.injEq] at h1 h2 h3
        subst h1; subst h2; subst h3
        exact ⟨i, Nat.zero_le _, by simp only [Side.nat, SEnv.side] at hi; omega, hf, hcor⟩
      · rintro ⟨i, _, hi, hf, hcor⟩
        exact ⟨el, base + s, _, hel, m1, hct, i, by simp only [Side.nat, SEnv.side]; omega, hf, hcor⟩
  | opt t ih =>
    intro hw a p L L' lv pl hp hL h hm
    simp only [Ty.sizeof] at hp
    rcases h with ⟨h0, rfl, rfl, rfl⟩ | ⟨h1, lv', hc, rfl⟩
    · constructor
      · rintro ⟨h1, _⟩
        rw [show e.side.mem a = 0#8 from h0] at h1
        cases h1
      · rintro ⟨g, hg, _⟩; simp at hg
    · have hch := ih hw _ _ _ _ _ _ (by omega) hL hc fun l hl => hm l (List.mem_cons_of_mem _ hl)
      rw [← hch, ← Nat.add_assoc]
      exact ⟨fun h => h.2, fun h => ⟨h1, h⟩⟩
  | var ib so s al n t ih =>
    intro hw a p L L' lv pl hp hL h hm
    simp only [Ty.sizeof] at hp
    obtain ⟨i, lv', hi, hc, rfl⟩ := h
    obtain ⟨_, _, _, _, _, _, _, _, hwi⟩ := hw
    obtain ⟨w1, w2, w3, w4⟩ := hwi i
    have hch := ih i w1 _ _ _ _ _ _ (by omega) hL hc fun l hl => hm l (List.mem_cons_of_mem _ hl)
    rw [← hch, ← Nat.add_assoc]
    constructor
    · rintro ⟨i', hi', hcor⟩
      have : i' = i := Fin.ext (by rw [← hi, ← hi']; rfl)
      subst this
      exact hcor
    · exact fun h => ⟨i, hi, h⟩
  | arr n t ih =>
    intro hw a p L L' lv pl hp hL h hm
    simp only [Ty.sizeof] at hp
    have hch := ChainFrom.any (A := Fm e d base G m) (B := fun g => ∃ z, g.covers v z ∧ y = base + z)
      (C := fun i => Corr e.side (d.side m) t (a + i * t.sizeof) (base + p + i * t.sizeof) v y)
      _ 0 _ _ _ _ (fun j _ hj M M' lv'' pl'' hl hA => by
        have hb := mul_bound (s := t.sizeof) (show j < n by omega)
        rw [Nat.add_assoc]
        exact ih hw.2 _ _ _ _ _ _ (by omega) hl.2 hl.1 hA)
      (ChainFrom.bound (B := N) _ _ _ _ _ _ (fun j => Lay.le t _ _) hL h) hm
    rw [← hch]
    constructor
    · rintro ⟨i, hi, hcor⟩; exact ⟨i, Nat.zero_le _, by omega, hcor⟩
    · rintro ⟨i, _, hi, hcor⟩; exact ⟨i, by omega, hcor⟩
  | idx t ih =>
    intro hw a p L L' lv pl hp hL h hm
    obtain ⟨pl', hc, rfl⟩ := h
    have hch := ih hw _ _ _ _ _ _ hp hL hc hm
    constructor
    · rintro (⟨k1, k2⟩ | hcor)
      · exact ⟨_, List.mem_cons_self, p, ⟨k1, rfl⟩, k2⟩
      · obtain ⟨g, hg, hh⟩ := hch.1 hcor
        exact ⟨g, List.mem_cons_of_mem _ hg, hh⟩
    · rintro ⟨g, hg, z, hz, hy⟩
      rcases List.mem_cons.1 hg with hg | hg
      · subst hg
        obtain ⟨k1, k2⟩ := hz
        simp only at k1 k2
        exact Or.inl ⟨k1, by omega⟩
      · exact Or.inr (hch.2 ⟨g, hg, z, hz, hy⟩)
  | agg s al n off t ih =>
    intro hw a p L L' lv pl hp hL h hm
    simp only [Ty.sizeof] at hp
    have hch := ChainFrom.any (A := Fm e d base G m) (B := fun g => ∃ z, g.covers v z ∧ y = base + z)
      (C := fun i => ∃ h : i < n, Corr e.side (d.side m) (t ⟨i, h⟩) (a + off ⟨i, h⟩) (base + p + off ⟨i, h⟩) v y)
      _ 0 _ _ _ _ (fun j _ hj M M' lv'' pl'' hl hA => by
        obtain ⟨⟨hjn, hl⟩, hM⟩ := hl
        obtain ⟨w1, w2, _⟩ := hw.2.2.2.1 ⟨j, hjn⟩
        rw [← ih ⟨j, hjn⟩ w1 _ _ _ _ _ _ (by omega) hM hl hA, ← Nat.add_assoc]
        exact ⟨fun ⟨_, h⟩ => h, fun h => ⟨hjn, h⟩⟩)
      (ChainFrom.bound (B := N) _ _ _ _ _ _ (fun j M M' lv pl ⟨hj, hl⟩ => Lay.le _ _ _ _ _ _ _ hl) hL h) hm
    rw [← hch]
    constructor
    · rintro ⟨i, hcor⟩; exact ⟨i.1, Nat.zero_le _, by have := i.2; omega, i.2, hcor⟩
    · rintro ⟨i, _, hi, hin, hcor⟩; exact ⟨⟨i, hin⟩, hcor⟩

end Cista.Ser

import Verif.Ser.Lemmas

/-!
# Iterating the control bytes of a hash table in memory
-/
set_option linter.unusedSimpArgs false
set_option linter.unusedSectionVars false

namespace Cista.Ser

/-- The `n` control bytes at `c`. -/
def ctl (m : Mem) (c n : Nat) : List Nat := (rd m c n).map BitVec.toNat

/-- Slot `i` of the table with control bytes at `c` is in use. -/
def Full (m : Mem) (c i : Nat) : Prop := HS.isFull (m (c + i)).toNat = true

instance (m : Mem) (c i : Nat) : Decidable (Full m c i) := inferInstanceAs (Decidable (_ = true))

/-- Control bytes of a table with `cap` slots: each slot is full, empty or deleted; an end marker and the eight mirror bytes follow. -/
structure Ctrl (cs : List Nat) (cap : Nat) : Prop where
  len : cs.length = cap + 9
  fin : cs[cap]? = some HS.END
  valid : ∀ c ∈ cs, HS.Valid c
  slot : ∀ i c, i < cap → cs[i]? = some c → c ≠ HS.END

/-- The control bytes agree with the counters of the table: `size` slots are in use, and `growth` (insertions until the next
rehash) is not less than what the free slots and the load factor leave (cf. C41: tables with tombstones may violate this). -/
structure HTable (cs : List Nat) (cap size growth : Nat) : Prop extends Ctrl cs cap where
  used : size = (cs.take cap).countP HS.isFull
  grow : ∀ g, HS.neverFullCount cs cap cap 0 = .ok g → min ((HS.growthOf cap + 2 ^ 64 - size) % 2 ^ 64) g ≤ growth

theorem length_ctl (m : Mem) (c n : Nat) : (ctl m c n).length = n := by simp [ctl]

theorem ctl_get {m : Mem} {c n i : Nat} (h : i < n) : (ctl m c n)[i]? = some (m (c + i)).toNat := by
  unfold ctl
  have hl : i < (rd m c n).length := by simpa using h
  rw [List.getElem?_map, List.getElem?_eq_getElem hl, getElem_rd]
  rfl

theorem neverFull_ok {cs : List Nat} {cap : Nat} (hl : cs.length = cap + 9) : ∀ n i, i + n ≤ cap →
    ∃ g, HS.neverFullCount cs cap n i = .ok g
  | 0, i, _ => ⟨0, rfl⟩
  | n + 1, i, h => by
    obtain ⟨g, hg⟩ := neverFull_ok hl n (i + 1) (by omega)
    have hi : cs[i]? = some cs[i] := List.getElem?_eq_getElem (by omega)
    have hb : HS.before cap i ≤ cap := Nat.and_le_right
    have hw : ∃ b, HS.wasNeverFull cs cap i = .ok b := by
      unfold HS.wasNeverFull HS.group
      rw [if_pos (by omega), ok_bind, if_pos (by omega), ok_bind]
      exact ⟨_, rfl⟩
    obtain ⟨b, hw⟩ := hw
    unfold HS.neverFullCount HS.ctrlAt
    rw [hi]
    simp only [ok_bind, hg, hw]
    split
    · exact ⟨_, rfl⟩
    · exact ⟨_, rfl⟩

theorem count_all {L : List Nat} (hL : ∀ c ∈ L, HS.Valid c) :
    L.count HS.EMPTY + L.countP HS.isFull + L.count HS.DELETED + L.count HS.END = L.length := by
  induction L with
  | nil => rfl
  | cons c L ih =>
    have ih := ih fun x hx => hL x (by simp [hx])
    simp only [List.countP_cons, List.count_cons, List.length_cons]
    rcases hL c (by simp) with hc | hc | hc | hc
    · have h1 : HS.isFull c = true := by simp [HS.isFull, hc]
      have h2 : (c == HS.EMPTY) = false := by simp [HS.EMPTY]; omega
      have h3 : (c == HS.DELETED) = false := by simp [HS.DELETED]; omega
      have h4 : (c == HS.END) = false := by simp [HS.END]; omega
      simp only [h1, h2, h3, h4, if_true, Bool.false_eq_true, if_false]; omega
    · subst hc; simp [HS.isFull, HS.EMPTY, HS.DELETED, HS.END] at ih ⊢; omega
    · subst hc; simp [HS.isFull, HS.EMPTY, HS.DELETED, HS.END] at ih ⊢; omega
    · subst hc; simp [HS.isFull, HS.EMPTY, HS.DELETED, HS.END] at ih ⊢; omega

theorem validByte_iff {c : Nat} : HS.validByte c = true ↔ HS.Valid c := by
  unfold HS.validByte HS.Valid
  rw [decide_eq_true_iff]
  constructor <;> intro h <;> omega

theorem mem_take_lt {L : List Nat} {n c : Nat} (h : c ∈ L.take n) : ∃ i, i < n ∧ L[i]? = some c := by
  obtain ⟨i, hi⟩ := List.mem_iff_getElem?.1 h
  have hin : i < n := by
    have := (List.getElem?_eq_some_iff.1 hi).1
    simp at this; omega
  rw [List.getElem?_take_of_lt hin] at hi
  exact ⟨i, hin, hi⟩

/-- serialization.h:946-988: a passed check. -/
theorem checkState_tri {cs : List Nat} {cap size growth : Nat} {b : Bool} (hl : cs.length = cap + 9) :
    Tri (HS.checkState (⟨cs, [], size, cap, growth, b, false⟩ : HS.HS Nat Nat)) fun _ => HTable cs cap size growth := by
  obtain ⟨g, hg⟩ := neverFull_ok hl cap 0 (by omega)
  unfold HS.checkState
  rw [decide_eq_true (show cap + 9 ≤ cs.length by omega), require_true, ok_bind]
  refine Tri.bind (Tri.verify _) fun _ _ _ => ?_
  refine Tri.bind (Tri.verify _) fun _ _ _ => ?_
  refine Tri.bind (Tri.verify _) fun _ _ h1 => ?_
  refine Tri.bind (Tri.verify _) fun _ _ h2 => ?_
  simp only [hg, ok_bind]
  refine Tri.bind (Tri.verify _) fun _ _ h3 => ?_
  refine Tri.bind (Tri.verify _) fun _ _ h4 => ?_
  refine Tri.mono (Tri.verify _) fun _ h5 => ?_
  have h1 : cs[cap]? = some HS.END := of_decide_eq_true h1
  have h3 : size = (cs.take cap).countP HS.isFull := of_decide_eq_true h3
  have h4 := of_decide_eq_true h4
  have h5 := of_decide_eq_true h5
  have h2 : ∀ c ∈ cs, HS.Valid c := fun c hc => by
    have := List.all_eq_true.1 h2 c (by rw [List.take_of_length_le (by simp only; omega)]; exact hc)
    exact validByte_iff.1 this
  refine ⟨⟨hl, h1, h2, fun i c hi hc he => ?_⟩, h3, fun g' hg' => ?_⟩
  · subst he
    have hv : ∀ c ∈ cs.take cap, HS.Valid c := fun c hc => h2 c (List.mem_of_mem_take hc)
    have h6 := count_all hv
    have hm : HS.END ∈ cs.take cap := List.mem_of_getElem? (i := i) (by rw [List.getElem?_take_of_lt hi]; exact hc)
    have : 0 < (cs.take cap).count HS.END := List.count_pos_iff.2 hm
    have hlen : (cs.take cap).length = cap := by simp; omega
    omega
  · rw [hg] at hg'
    injection hg' with hg'
    subst hg'
    exact h5

/-- serialization.h:946-988: the check passes. -/
theorem checkState_table {cs : List Nat} {cap size growth : Nat} {b : Bool} (h : HTable cs cap size growth)
    (hb : b = false ↔ cap = 0 ∧ size = 0) :
    HS.checkState (⟨cs, [], size, cap, growth, b, false⟩ : HS.HS Nat Nat) = .ok () := by
  obtain ⟨g, hg⟩ := neverFull_ok h.len cap 0 (by omega)
  have hlen : (cs.take cap).length = cap := by have := h.len; simp; omega
  have h0 : (cs.take cap).count HS.END = 0 := List.count_eq_zero.2 fun hm => by
    obtain ⟨i, hi, hc⟩ := mem_take_lt hm
    exact h.slot i _ hi hc rfl
  have h6 := count_all (L := cs.take cap) fun c hc => h.valid c (List.mem_of_mem_take hc)
  have e1 : (cs.take (cap + 9)).all HS.validByte = true := by
    rw [List.all_eq_true]
    exact fun c hc => validByte_iff.2 (h.valid c (List.mem_of_mem_take hc))
  have e2 : decide ((cs.take cap).count HS.EMPTY + (cs.take cap).countP HS.isFull + (cs.take cap).count HS.DELETED = cap) = true :=
    decide_eq_true (by omega)
  have e3 := decide_eq_true (h.grow g hg)
  unfold HS.checkState
  show (require (decide (cap + 9 ≤ cs.length)) >>= fun _ => verify (decide (b = false ↔ cap = 0 ∧ size = 0)) >>= fun _ =>
    verify (decide (false = false)) >>= fun _ => verify (decide (cs[cap]? = some HS.END)) >>= fun _ =>
    verify ((cs.take (cap + 9)).all HS.validByte) >>= fun _ => HS.neverFullCount cs cap cap 0 >>= fun g =>
    verify (decide (size = (cs.take cap).countP HS.isFull)) >>= fun _ =>
    verify (decide ((cs.take cap).count HS.EMPTY + (cs.take cap).countP HS.isFull + (cs.take cap).count HS.DELETED = cap)) >>= fun _ =>
    verify (decide (min ((HS.growthOf cap + 2 ^ 64 - size) % 2 ^ 64) g ≤ growth))) = .ok ()
  rw [decide_eq_true (show cap + 9 ≤ cs.length by have := h.len; omega), require_true, ok_bind, decide_eq_true hb, verify_true, ok_bind,
    decide_eq_true rfl, verify_true, ok_bind, decide_eq_true h.fin, verify_true, ok_bind, e1, verify_true, ok_bind, hg, ok_bind,
    decide_eq_true h.used, verify_true, ok_bind, e2, verify_true, ok_bind, e3, verify_true]

variable {d : DEnv}

theorem ctl_window {m : Mem} {c n i : Nat} (h : i + 8 ≤ n) : (rd m (c + i) 8).map BitVec.toNat = ((ctl m c n).drop i).take 8 := by
  refine List.ext_getElem? fun j => ?_
  by_cases hj : j < 8
  · rw [List.getElem?_take_of_lt hj, List.getElem?_drop, ctl_get (by omega)]
    have := ctl_get (m := m) (c := c + i) (n := 8) hj
    unfold ctl at this
    rw [this, Nat.add_assoc]
  · rw [List.getElem?_eq_none (by simp; omega), List.getElem?_eq_none (by simp; omega)]

/-- hash_storage.h:180-186 in memory and on the list of control bytes. -/
theorem skipM_eq {m : Mem} {c n : Nat} (hlo : d.lo ≤ c) (hhi : c + n ≤ d.hi) : ∀ f i j, HS.skip (ctl m c n) f i = .ok j →
    skipM d m c f i = .ok j
  | 0, i, j, h => by cases h
  | f + 1, i, j, h => by
    unfold HS.skip HS.ctrlAt at h
    by_cases hi : i < n
    · rw [ctl_get hi] at h
      simp only [ok_bind] at h
      have e1 : ldN d m (c + i) 1 = .ok (m (c + i)).toNat := by
        unfold ldN ld
        rw [if_pos ⟨by omega, by omega, Nat.mod_one _⟩, ok_bind, rd_one]
        cases d.host <;> simp [ofHost, ofLE]
      unfold skipM
      rw [e1, ok_bind]
      cases hE : HS.isED (m (c + i)).toNat with
      | false =>
        rw [hE] at h
        simp only [Bool.false_eq_true, if_false] at h ⊢
        exact h
      | true =>
        rw [hE] at h
        simp only [if_true] at h ⊢
        unfold HS.group at h
        rw [length_ctl] at h
        by_cases hw : i + 8 ≤ n
        · rw [if_pos hw, ok_bind] at h
          unfold ld
          rw [if_pos ⟨by omega, by omega, Nat.mod_one _⟩, ok_bind, ctl_window hw]
          exact skipM_eq hlo hhi f _ _ h
        · rw [if_neg hw, error_bind] at h; cases h
    · rw [List.getElem?_eq_none (by rw [length_ctl]; omega), error_bind] at h
      cases h

theorem forFrom_append {σ : Type} (f : Nat → σ → Res σ) : ∀ (k l i : Nat) (s : σ),
    forFrom f i (k + l) s = (forFrom f i k s >>= fun s => forFrom f (i + k) l s)
  | 0, l, i, s => by rw [Nat.zero_add, forFrom_zero, ok_bind, Nat.add_zero]
  | k + 1, l, i, s => by
    rw [Nat.add_right_comm, forFrom_succ, forFrom_succ]
    cases f i s with
    | error _ => rfl
    | ok s' => rw [ok_bind, ok_bind, forFrom_append f k l (i + 1) s', Nat.add_right_comm, Nat.add_assoc]

/-- Skipping over slots that are not in use. -/
theorem forFrom_idle {σ : Type} {f : Nat → σ → Res σ} {P : Nat → σ → Prop} : ∀ (k i : Nat) (s : σ),
    (∀ j, i ≤ j → j < i + k → ∀ s, f j s = .ok s) → (∀ j, i ≤ j → j < i + k → ∀ s, P j s → P (j + 1) s) → P i s →
    forFrom f i k s = .ok s ∧ P (i + k) s
  | 0, i, s, _, _, h => ⟨rfl, h⟩
  | k + 1, i, s, h1, h2, h => by
    have := forFrom_idle k (i + 1) s (fun j a b => h1 j (by omega) (by omega)) (fun j a b => h2 j (by omega) (by omega))
      (h2 i (Nat.le_refl _) (by omega) s h)
    rw [forFrom_succ, h1 i (Nat.le_refl _) (by omega), ok_bind]
    rw [show i + (k + 1) = i + 1 + k by omega]
    exact this

variable {σ : Type} {mem : σ → Mem} {body : Nat → σ → Res σ} {m0 : Mem} {c cap : Nat} {P : Nat → σ → Prop}

/-- One call of `skip_empty_or_deleted`. -/
theorem skipM_slot (hlo : d.lo ≤ c) (hhi : c + (cap + 9) ≤ d.hi) (hc : Ctrl (ctl m0 c (cap + 9)) cap) {i : Nat} (hi : i ≤ cap) :
    ∃ j, skipM d m0 c (d.hi + 1) i = .ok j ∧ i ≤ j ∧ j ≤ cap ∧ (∀ p, i ≤ p → p < j → ¬ Full m0 c p) ∧ (j = cap ∨ Full m0 c j) := by
  obtain ⟨j, h1, h2, h3, h4, x, h5, h6⟩ := HS.skip_any (ctrl := ctl m0 c (cap + 9)) (cap := cap) (by rw [length_ctl]; exact Nat.le_refl _) hc.fin
    (fun x hx => hc.valid x (List.mem_of_mem_take hx)) (d.hi + 1) i hi (by omega)
  refine ⟨j, skipM_eq hlo hhi _ _ _ h1, h2, h3, fun p hp hp' hf => ?_, ?_⟩
  · obtain ⟨y, hy, hE⟩ := h4 p hp hp'
    rw [ctl_get (by omega)] at hy
    injection hy with hy
    unfold Full at hf
    rw [hy] at hf
    unfold HS.isFull at hf
    unfold HS.isED at hE
    have := of_decide_eq_true hf
    have := of_decide_eq_true hE
    omega
  · rcases Nat.eq_or_lt_of_le h3 with h | h
    · exact Or.inl h
    · right
      have hne := hc.slot j x h h5
      have hv := hc.valid x (List.mem_of_getElem? h5)
      rw [ctl_get (by omega)] at h5
      injection h5 with h5
      unfold Full
      rw [h5]
      unfold HS.isED at h6
      have h6 := of_decide_eq_false h6
      unfold HS.isFull
      apply decide_eq_true
      unfold HS.Valid HS.EMPTY HS.DELETED at hv
      omega

/-- The loop visits the slots in use, as long as the control bytes stay what they are. -/
theorem hashIter_eq (hlo : d.lo ≤ c) (hhi : c + (cap + 9) ≤ d.hi) (hc : Ctrl (ctl m0 c (cap + 9)) cap)
    (hP : ∀ j s, P j s → rd (mem s) c (cap + 9) = rd m0 c (cap + 9))
    (hstep : ∀ j s s', j < cap → P j s → Full m0 c j → body j s = .ok s' → P (j + 1) s')
    (hskip : ∀ j s, j < cap → P j s → ¬ Full m0 c j → P (j + 1) s) :
    ∀ f i s, i ≤ cap → cap < i + f → i = cap ∨ Full m0 c i → P i s →
      hashIter d mem body c cap f i s = forFrom (fun j s => if Full m0 c j then body j s else .ok s) i (cap - i) s
  | 0, i, s, h1, h2, _, _ => by omega
  | f + 1, i, s, h1, h2, h3, hp => by
    unfold hashIter
    by_cases he : i = cap
    · rw [if_pos he, he, Nat.sub_self, forFrom_zero]
    · rw [if_neg he]
      have hf : Full m0 c i := h3.resolve_left he
      rw [show cap - i = (cap - i - 1) + 1 by omega, forFrom_succ, if_pos hf]
      cases hb : body i s with
      | error _ => rfl
      | ok s' =>
        have hp' := hstep i s s' (by omega) hp hf hb
        have hm := hP _ _ hp'
        have hc' : Ctrl (ctl (mem s') c (cap + 9)) cap := by
          unfold ctl
          rw [hm]
          exact hc
        have hfull : ∀ p, p < cap → (Full (mem s') c p ↔ Full m0 c p) := fun p hp => by
          have := rd_eq_iff.1 hm p (by omega)
          unfold Full
          rw [this]
        obtain ⟨j, e, g1, g2, g3, g4⟩ := skipM_slot hlo hhi hc' (i := i + 1) (by omega)
        rw [ok_bind, ok_bind, e, ok_bind]
        obtain ⟨q1, q2⟩ := forFrom_idle (f := fun j s => if Full m0 c j then body j s else .ok s) (P := P) (j - (i + 1)) (i + 1) s'
          (fun p a b s => if_neg fun h => g3 p a (by omega) ((hfull p (by omega)).2 h))
          (fun p a b s hps => hskip p s (by omega) hps fun h => g3 p a (by omega) ((hfull p (by omega)).2 h)) hp'
        rw [show i + 1 + (j - (i + 1)) = j by omega] at q2
        rw [hashIter_eq hlo hhi hc hP hstep hskip f j s' g2 (by omega) (g4.imp id fun h => by
          rcases Nat.eq_or_lt_of_le g2 with h' | h'
          · subst h'
            have hx := rd_eq_iff.1 hm j (by omega)
            unfold Full at h ⊢
            rw [← hx]; exact h
          · exact (hfull j h').1 h) q2]
        rw [show cap - i - 1 = (j - (i + 1)) + (cap - j) by omega, forFrom_append, q1, ok_bind, show i + 1 + (j - (i + 1)) = j by omega]

theorem toAddr_ok {x : Nat} (h : 0 < x) : toAddr (x : Int) = .ok x := by
  unfold toAddr
  rw [if_neg (by omega)]
  simp

/-- A table without slots has nothing to visit. -/
theorem hashFor_nil {body : Nat → σ → Res σ} {size a : Nat} {s : σ} {en : Int} (h1 : loadPtr d (mem s) (a + 8) = .ok (c : Int)) (hc0 : 0 < c)
    (h2 : loadPtr d (mem s) a = .ok en) (h3 : ldN d (mem s) (a + 24) 8 = .ok 0) (hlo : d.lo ≤ c) (hhi : c + 9 ≤ d.hi)
    (hc : Ctrl (ctl (mem s) c 9) 0) : hashFor d mem body size a s = .ok s := by
  obtain ⟨j, e, _, g2, _, _⟩ := skipM_slot (cap := 0) hlo (by omega) hc (Nat.le_refl _)
  unfold hashFor
  rw [h1, ok_bind, h2, ok_bind, h3, ok_bind, toAddr_ok hc0, ok_bind, e, ok_bind]
  have : j = 0 := by omega
  subst this
  unfold hashIter
  exact if_pos rfl

/-- serialization.h:991-999: `recurse` visits the slots in use. -/
theorem hashFor_eq {body : Nat → σ → Res σ} {size a el : Nat} {s : σ} (h1 : loadPtr d (mem s) (a + 8) = .ok (c : Int)) (hc0 : 0 < c)
    (h2 : loadPtr d (mem s) a = .ok (el : Int)) (he0 : 0 < el) (h3 : ldN d (mem s) (a + 24) 8 = .ok cap)
    (hlo : d.lo ≤ c) (hhi : c + (cap + 9) ≤ d.hi) (hc : Ctrl (ctl (mem s) c (cap + 9)) cap)
    (hP : ∀ j s', P j s' → rd (mem s') c (cap + 9) = rd (mem s) c (cap + 9))
    (hstep : ∀ j s1 s', j < cap → P j s1 → Full (mem s) c j → body (el + j * size) s1 = .ok s' → P (j + 1) s')
    (hskip : ∀ j s1, j < cap → P j s1 → ¬ Full (mem s) c j → P (j + 1) s1) (h0 : P 0 s) :
    hashFor d mem body size a s =
      forFrom (fun j s1 => if Full (mem s) c j then body (el + j * size) s1 else .ok s1) 0 cap s := by
  obtain ⟨j, e, g1, g2, g3, g4⟩ := skipM_slot hlo hhi hc (Nat.zero_le _)
  unfold hashFor
  rw [h1, ok_bind, h2, ok_bind, h3, ok_bind, toAddr_ok hc0, ok_bind, e, ok_bind]
  simp only [toAddr_ok he0, ok_bind]
  obtain ⟨q1, q2⟩ := forFrom_idle (f := fun j s1 => if Full (mem s) c j then body (el + j * size) s1 else .ok s1) (P := P) j 0 s
    (fun p a b s => if_neg (g3 p a (by omega))) (fun p a b s hps => hskip p s (by omega) hps (g3 p a (by omega))) h0
  rw [Nat.zero_add] at q2
  rw [hashIter_eq (body := fun i s1 => body (el + i * size) s1) hlo hhi hc hP hstep hskip (d.hi + 1) j s g2 (by omega) g4 q2]
  have e1 := forFrom_append (fun j s1 => if Full (mem s) c j then body (el + j * size) s1 else .ok s1) j (cap - j) 0 s
  rw [show j + (cap - j) = cap by omega, q1, ok_bind, Nat.zero_add] at e1
  exact e1.symm

end Cista.Ser

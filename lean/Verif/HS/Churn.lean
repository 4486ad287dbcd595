import Verif.HS.Iter

set_option linter.unusedSimpArgs false

/-!
# C117 — the capacity of a hash table is not bounded by any function of the number of its entries

`C117_churn_violated` (`Verif.HS.Iter`) is one history; here tables of at most eight entries are driven to any capacity.
The step: fill one window of eight free slots with eight keys and erase them again.  Each of the eight erasures leaves a
tombstone (hash_storage.h:498-515), which is not available for keys of other windows without consuming `growth_left_`
first; as soon as that is used up the table doubles (563-566, 579-581).
-/
namespace Cista.HS

/-- Insert eight keys that share the start of their probe sequence, then erase them. -/
def cycle (q : Nat) : List (Op Nat Nat) :=
  (List.range 8).map (fun j => Op.emplace (8 * q + j) 0) ++ (List.range 8).map fun j => Op.erase (8 * q + j)

theorem h1_churn (q : Nat) {j : Nat} (hj : j < 8) : h1 (churnHash (8 * q + j)) = 8 * q := by
  unfold h1 churnHash
  rw [show (8 * q + j) / 8 * 8 = 8 * q by omega, Nat.shiftRight_eq_div_pow, Nat.mul_div_cancel _ (by decide), Nat.xor_assoc,
    Nat.xor_self, Nat.xor_zero]

section
variable {K V : Type} [DecidableEq K]

omit [DecidableEq K] in
theorem Inv.slots {hash : K → Nat} {N : Nat} {st : HS K V} {S : List Nat} (h : Inv hash N st S) : S = st.ctrl.take st.cap := by
  obtain ⟨t, ht⟩ := h.lay
  rw [ht, h.cap, layout, List.append_assoc, List.take_left']
  rfl

/-- The slots of the window at `p`: the first `j` full, the others free. -/
def Win (p j : Nat) (S : List Nat) : Prop := ∀ x, x < 8 → ∃ c, S[p + x]? = some c ∧ (isED c = true ↔ j ≤ x)

theorem findFirst_win {S : List Nat} (t : List Nat) (hc : PCap S.length) (sv : SV S) {h p j : Nat} (hw : Win p j S) (hj : j < 8)
    (hp : h1 h = p) : findFirst (layout S ++ t) S.length h = .ok (p + j) := by
  obtain ⟨c0, hc0, he0⟩ := hw j hj
  have hl : p + j < S.length := (List.getElem?_eq_some_iff.1 hc0).1
  have hpos : pos S.length (h1 h) 0 = p := by
    rw [hp]; simp only [pos, T]; rw [Nat.mod_eq_of_lt (by omega)]; simp
  have hmem : ∀ x c, x < 8 → S[p + x]? = some c → c ∈ win S (pos S.length (h1 h) 0) := by
    intro x c hx hc
    rw [hpos]
    exact win_mem.2 ⟨x, hx, byteAt_slot hc⟩
  obtain ⟨n, jj, hff, hjj, hED, hlo, hno⟩ := findFirst_spec (t := t) hc sv h
    ⟨0, c0, Nat.zero_le _, hmem j c0 hj hc0, he0.2 (Nat.le_refl _)⟩
  have hn : n = 0 := by
    rcases Nat.eq_zero_or_pos n with h0 | h0
    · exact h0
    · have := hno 0 h0 c0 (hmem j c0 hj hc0)
      rw [he0.2 (Nat.le_refl _)] at this
      cases this
  subst hn
  rw [hpos] at hff hED hlo
  have hjj' : jj = j := by
    obtain ⟨c, hc, he⟩ := hw jj hjj
    rw [byteAt_slot hc] at hED
    have h1 := he.1 hED
    rcases Nat.lt_or_ge j jj with h2 | h2
    · have := hlo j h2
      rw [byteAt_slot hc0, he0.2 (Nat.le_refl _)] at this
      cases this
    · omega
  subst hjj'
  rw [hff, hc.and, Nat.mod_eq_of_lt (by omega)]

/-- An insertion into the window that does not enlarge the table. -/
theorem emplace_win {hash : K → Nat} {N : Nat} {st st' : HS K V} {S : List Nat} (h : Inv hash N st S) {e : K × V} {p j i : Nat}
    {b : Bool} (habs : ∀ f ∈ live st.entries, f.1 ≠ e.1) (hw : Win p j S) (hj : j < 8) (hp : h1 (hash e.1) = p)
    (he : emplace hash st e = .ok (st', i, b)) (hcap : st'.cap = st.cap) :
    st'.entries = st.entries.set (p + j) (some e) ∧ st'.ctrl.take st'.cap = S.set (p + j) (h2 (hash e.1)) := by
  obtain ⟨t, ht⟩ := h.lay
  obtain ⟨c, hc, _⟩ := hw j hj
  have hl : p + j < S.length := (List.getElem?_eq_some_iff.1 hc).1
  unfold emplace at he
  obtain ⟨r, hr, he⟩ := bind_inv he
  unfold findOrPrepare at hr
  rw [h.find_none habs] at hr
  simp only [ok_bind] at hr
  obtain ⟨pr, hpr, hr⟩ := bind_inv hr
  injection hr with hr
  subst hr
  simp only [if_true] at he
  obtain ⟨es, hes, he⟩ := bind_inv he
  injection he with he
  injection he with he _
  subst he
  obtain ⟨h0, rfl⟩ := construct_inv hes
  unfold prepareInsert at hpr
  rw [ht, h.cap, findFirst_win t h.core.pc h.core.sv hw hj hp, ok_bind, ctrlAt_layout (by omega), ok_bind, byteAt_slot hc] at hpr
  dsimp only at hcap ⊢
  by_cases hg : st.growth = 0 ∧ c ≠ DELETED
  · exfalso
    rw [if_pos hg] at hpr
    obtain ⟨st2, hgr, hpr⟩ := bind_inv hpr
    obtain ⟨t', _, hpr⟩ := bind_inv hpr
    obtain ⟨hc2, _, _⟩ := takeSlot_inv (st1 := pr.1) (i := pr.2) hpr
    unfold grow resize at hgr
    obtain ⟨s, _, hgr⟩ := bind_inv hgr
    split at hgr
    · cases hgr
    · injection hgr with hgr
      rw [← hgr] at hc2
      dsimp only at hc2
      split at hc2 <;> omega
  · rw [if_neg hg] at hpr
    have hpr' := hpr
    unfold takeSlot at hpr'
    rw [ht, ctrlAt_layout (by omega), ok_bind, byteAt_slot hc, h.cap, setCtrl_layout _ h.core.pc hl, ok_bind] at hpr'
    injection hpr' with hpr'
    subst hpr'
    refine ⟨rfl, ?_⟩
    dsimp only
    rw [layout, List.append_assoc, List.take_left']
    simp

omit [DecidableEq K] in
/-- Erasing an entry from a window without an empty slot leaves a tombstone. -/
theorem eraseAt_win {hash : K → Nat} {N : Nat} {st st' : HS K V} {S : List Nat} (h : Inv hash N st S) {e : K × V} {p x : Nat}
    (hw : ∀ x, x < 8 → ∃ c, S[p + x]? = some c ∧ c ≠ EMPTY) (hx : x < 8) (hent : st.entries[p + x]? = some (some e))
    (he : eraseAt st (p + x) = .ok st') :
    st'.entries = st.entries.set (p + x) none ∧ st'.ctrl.take st'.cap = S.set (p + x) DELETED := by
  obtain ⟨t, ht⟩ := h.lay
  have hS := h.core.tag _ e hent
  have hil := (List.getElem?_eq_some_iff.1 hS).1
  have hnE : h2 (hash e.1) ≠ EMPTY := by have := h2_lt (hash e.1); unfold EMPTY; omega
  obtain ⟨b, hb, hbw⟩ := wasNeverFull_spec t h.core.pc h.core.sv hS hnE
  have hbf : b = false := by
    cases b with
    | false => rfl
    | true =>
      exfalso
      have := hbw rfl p (by omega) ⟨x, hx, slotOf_some.2 ⟨hil, Or.inl rfl⟩⟩
      obtain ⟨y, hy, hye⟩ := win_mem.1 this
      obtain ⟨c, hc, hne⟩ := hw y hy
      rw [byteAt_slot hc] at hye
      exact hne hye
  subst hbf
  unfold eraseAt eraseMeta entryAt at he
  rw [hent] at he
  simp only [ok_bind] at he
  rw [ht, h.cap, hb, ok_bind, setCtrl_layout _ h.core.pc hil, ok_bind] at he
  injection he with he
  subst he
  refine ⟨rfl, ?_⟩
  dsimp only
  rw [layout, List.append_assoc, List.take_left']
  · rfl
  · simp

/-- The capacity does not shrink. -/
theorem run_cap {hash : K → Nat} {d : V} : ∀ (ops : List (Op K V)) {N : Nat} {st st' : HS K V} {S : List Nat} {outs : List (Out V)},
    Inv hash N st S → N + ops.length < 2 ^ 60 → ops.all Op.keeps = true → run hash d st ops = .ok (st', outs) →
    st'.cap = st.cap ∨ 2 * st.cap + 1 ≤ st'.cap
  | [], N, st, st', S, outs, h, _, _, hr => by
    injection hr with hr
    injection hr with hr _
    subst hr
    exact Or.inl rfl
  | op :: ops, N, st, st', S, outs, h, hN, hk, hr => by
    rw [List.length_cons] at hN
    rw [List.all_cons, Bool.and_eq_true] at hk
    have hpre : op.Pre (live st.entries) := (allowed_keeps (d := d) (ops := [op]) (by simp [hk.1])).1
    obtain ⟨st1, S1, e1, i1, p1, d1⟩ := exec_ok (d := d) h (List.Perm.refl _) (by omega) hpre
    obtain ⟨h1, _, _⟩ := exec_inv h (by omega) hk.1 e1
    simp only [run] at hr
    rw [e1, ok_bind] at hr
    obtain ⟨s, hs, hr⟩ := bind_inv hr
    injection hr with hr
    injection hr with hr _
    subst hr
    have h2 := run_cap ops i1 (by omega) hk.2 (outs := s.2) hs
    rcases h1.cap with h1 | h1 <;> rcases h2 with h2 | h2 <;> omega

end

/-! ## One window -/

/-- The keys `8 q + j`, …, `8 q + 7` are inserted and the capacity stays: then they fill the window, and there are fewer empty
slots if there was one among the free ones. -/
theorem fill_win {q c : Nat} : ∀ (r j : Nat) {N : Nat} {st st' : HS Nat Nat} {S : List Nat} {outs : List (Out Nat)}, j + r = 8 →
    Inv churnHash N st S → N + r < 2 ^ 60 → Win (8 * q) j S →
    (live st.entries).Perm (((List.range j).map fun x => (8 * q + x, 0)).reverse) →
    (∀ x, x < j → st.entries[8 * q + x]? = some (some (8 * q + x, 0))) →
    run churnHash 0 st ((List.range' j r).map fun j => Op.emplace (8 * q + j) 0) = .ok (st', outs) → st'.cap = st.cap →
    (S.count EMPTY < c ∨ S.count EMPTY = c ∧ ∃ x, j ≤ x ∧ x < 8 ∧ S[8 * q + x]? = some EMPTY) →
    ∃ S', Inv churnHash (N + r) st' S' ∧ Win (8 * q) 8 S' ∧
      (∀ x, x < 8 → st'.entries[8 * q + x]? = some (some (8 * q + x, 0))) ∧ S'.count EMPTY < c := by
  intro r
  induction r with
  | zero =>
    intro j N st st' S outs hj h hN hw hl hent hr hcap hE
    injection hr with hr
    injection hr with hr _
    subst hr
    have hj : j = 8 := by omega
    subst hj
    refine ⟨S, h, hw, hent, ?_⟩
    rcases hE with hE | ⟨_, x, h1, h2, _⟩
    · exact hE
    · omega
  | succ r ih =>
    intro j N st st' S outs hj h hN hw hl hent hr hcap hE
    have hj8 : j < 8 := by omega
    have habs : ∀ f ∈ live st.entries, f.1 ≠ 8 * q + j := by
      intro f hf
      have := hl.mem_iff.1 hf
      simp only [List.mem_reverse, List.mem_map, List.mem_range] at this
      obtain ⟨x, hx, rfl⟩ := this
      dsimp only
      omega
    rw [List.range'_succ, List.map_cons] at hr
    simp only [run] at hr
    obtain ⟨s1, e1, hr⟩ := bind_inv hr
    obtain ⟨s2, e2, hr⟩ := bind_inv hr
    injection hr with hr
    injection hr with hr _
    subst hr
    obtain ⟨st1, S1, e1', i1, p1, _⟩ := exec_ok (d := 0) (op := Op.emplace (8 * q + j) 0) h hl (by omega) trivial
    have hs1 : s1.1 = st1 := by rw [e1] at e1'; injection e1' with e1'; rw [e1']
    obtain ⟨hk, _, _⟩ := exec_inv h (by omega) rfl e1'
    have e2' : run churnHash 0 st1 ((List.range' (j + 1) r).map fun j => Op.emplace (8 * q + j) 0) = .ok (s2.1, s2.2) := by
      rw [← hs1]; exact e2
    have hmono := run_cap _ i1 (by simp; omega) (by simp [Op.keeps]) e2'
    have hcap1 : st1.cap = st.cap := by rcases hk.cap with h1 | h1 <;> rcases hmono with h2 | h2 <;> omega
    have hcap2 : s2.1.cap = s1.1.cap := by rw [hs1]; omega
    -- the insertion
    simp only [Op.exec] at e1'
    obtain ⟨re, hre, e1'⟩ := bind_inv e1'
    obtain ⟨_, _, e1'⟩ := bind_inv e1'
    injection e1' with e1'
    injection e1' with e1' _
    obtain ⟨hes, hct⟩ := emplace_win (e := (8 * q + j, 0)) (st' := re.1) (i := re.2.1) (b := re.2.2) h habs hw hj8 (h1_churn q hj8) hre (by rw [e1']; exact hcap1)
    rw [e1'] at hes hct
    have hS1 : S1 = S.set (8 * q + j) (h2 (churnHash (8 * q + j))) := by rw [i1.slots]; exact hct
    obtain ⟨c0, hc0, he0⟩ := hw j hj8
    have hlen : 8 * q + j < S.length := (List.getElem?_eq_some_iff.1 hc0).1
    have hlen' : 8 * q + j < st.entries.length := by rw [h.core.len]; exact hlen
    have hfull : isED (h2 (churnHash (8 * q + j))) = false := by
      have := h2_lt (churnHash (8 * q + j))
      simp [isED]; omega
    have hcount := count_set_eq (b := h2 (churnHash (8 * q + j))) (a := EMPTY) hc0
    have hne : h2 (churnHash (8 * q + j)) ≠ EMPTY := by have := h2_lt (churnHash (8 * q + j)); unfold EMPTY; omega
    rw [if_neg hne] at hcount
    obtain ⟨S', h1, h2, h3, h4⟩ := ih (j + 1) (st := s1.1) (by omega) (by rw [hs1]; exact i1) (by omega)
      (by
        intro x hx
        rw [hS1]
        by_cases hxj : x = j
        · subst hxj
          exact ⟨_, List.getElem?_set_self hlen, by rw [hfull]; simp⟩
        · obtain ⟨cx, hcx, hex⟩ := hw x hx
          refine ⟨cx, by rw [List.getElem?_set_ne (by omega)]; exact hcx, ?_⟩
          rw [hex]; omega)
      (by
        rw [hs1]
        refine p1.trans ?_
        simp only [Op.spec]
        rw [lookup_none (fun f hf => habs f (hl.mem_iff.2 hf))]
        rw [List.range_succ, List.map_append, List.reverse_append]
        exact List.Perm.refl _)
      (by
        intro x hx
        rw [hs1, hes]
        by_cases hxj : x = j
        · subst hxj
          exact List.getElem?_set_self hlen'
        · rw [List.getElem?_set_ne (by omega)]
          exact hent x (by omega))
      e2 hcap2
      (by
        rw [hS1]
        rcases hE with hE | ⟨hE, x, hx1, hx2, hx⟩
        · left; omega
        · by_cases hxj : x = j
          · subst hxj
            rw [hx] at hc0
            injection hc0 with hc0
            rw [if_pos hc0.symm] at hcount
            left; omega
          · by_cases hce : c0 = EMPTY
            · rw [if_pos hce] at hcount; left; omega
            · rw [if_neg hce] at hcount
              right
              exact ⟨by omega, x, by omega, hx2, by rw [List.getElem?_set_ne (by omega)]; exact hx⟩)
    exact ⟨S', by rw [show N + (r + 1) = N + 1 + r by omega]; exact h1, h2, h3, h4⟩

/-- Then they are erased: no slot becomes empty again. -/
theorem drain_win {q : Nat} : ∀ (r j : Nat) {N : Nat} {st st' : HS Nat Nat} {S : List Nat} {outs : List (Out Nat)}, j + r = 8 →
    Inv churnHash N st S → N + r < 2 ^ 60 → (∀ x, x < 8 → ∃ c, S[8 * q + x]? = some c ∧ c ≠ EMPTY) →
    (∀ x, j ≤ x → x < 8 → st.entries[8 * q + x]? = some (some (8 * q + x, 0))) →
    run churnHash 0 st ((List.range' j r).map fun j => Op.erase (8 * q + j)) = .ok (st', outs) →
    ∃ S', Inv churnHash (N + r) st' S' ∧ S'.count EMPTY = S.count EMPTY := by
  intro r
  induction r with
  | zero =>
    intro j N st st' S outs hj h hN hw hent hr
    injection hr with hr
    injection hr with hr _
    subst hr
    exact ⟨S, h, rfl⟩
  | succ r ih =>
    intro j N st st' S outs hj h hN hw hent hr
    have hj8 : j < 8 := by omega
    rw [List.range'_succ, List.map_cons] at hr
    simp only [run] at hr
    obtain ⟨s1, e1, hr⟩ := bind_inv hr
    obtain ⟨s2, e2, hr⟩ := bind_inv hr
    injection hr with hr
    injection hr with hr _
    subst hr
    obtain ⟨st1, S1, e1', i1, p1, _⟩ := exec_ok (d := 0) (op := Op.erase (8 * q + j)) h (List.Perm.refl _) (by omega) trivial
    have hs1 : s1.1 = st1 := by rw [e1] at e1'; injection e1' with e1'; rw [e1']
    have he := hent j (Nat.le_refl _) hj8
    simp only [Op.exec] at e1'
    obtain ⟨re, hre, e1'⟩ := bind_inv e1'
    injection e1' with e1'
    injection e1' with e1' _
    unfold erase at hre
    rw [h.find_some he, ok_bind] at hre
    dsimp only at hre
    obtain ⟨st2, her, hre⟩ := bind_inv hre
    injection hre with hre
    subst hre
    dsimp only at e1'
    subst e1'
    obtain ⟨hes, hct⟩ := eraseAt_win h hw hj8 he her
    have hS1 : S1 = S.set (8 * q + j) DELETED := by rw [i1.slots]; exact hct
    obtain ⟨c0, hc0, hne0⟩ := hw j hj8
    have hcount := count_set_eq (b := DELETED) (a := EMPTY) hc0
    rw [if_neg hne0, if_neg (by decide : ¬ DELETED = EMPTY)] at hcount
    obtain ⟨S', h1, h2⟩ := ih (j + 1) (st := s1.1) (by omega) (by rw [hs1]; exact i1) (by omega)
      (by
        intro x hx
        rw [hS1]
        by_cases hxj : x = j
        · subst hxj
          exact ⟨_, List.getElem?_set_self (List.getElem?_eq_some_iff.1 hc0).1, by decide⟩
        · obtain ⟨cx, hcx, hex⟩ := hw x hx
          exact ⟨cx, by rw [List.getElem?_set_ne (by omega)]; exact hcx, hex⟩)
      (by
        intro x hx1 hx2
        rw [hs1, hes, List.getElem?_set_ne (by omega)]
        exact hent x (by omega) hx2)
      e2
    exact ⟨S', by rw [show N + (r + 1) = N + 1 + r by omega]; exact h1, by rw [h2, hS1]; omega⟩

/-! ## Any capacity -/

theorem run_append {hash : Nat → Nat} : ∀ (a b : List (Op Nat Nat)) {st st1 st2 : HS Nat Nat} {o1 o2 : List (Out Nat)},
    run hash 0 st a = .ok (st1, o1) → run hash 0 st1 b = .ok (st2, o2) → run hash 0 st (a ++ b) = .ok (st2, o1 ++ o2)
  | [], b, st, st1, st2, o1, o2, h1, h2 => by
    injection h1 with h1
    injection h1 with h1 h1'
    subst h1 h1'
    exact h2
  | op :: a, b, st, st1, st2, o1, o2, h1, h2 => by
    simp only [run] at h1
    obtain ⟨r, hr, h1⟩ := bind_inv h1
    obtain ⟨s, hs, h1⟩ := bind_inv h1
    injection h1 with h1
    injection h1 with h1 h1'
    subst h1 h1'
    simp only [List.cons_append, run]
    rw [hr, ok_bind, run_append a b (st1 := s.1) (o1 := s.2) hs h2]
    rfl

theorem run_split {hash : Nat → Nat} : ∀ (a b : List (Op Nat Nat)) {st st2 : HS Nat Nat} {o : List (Out Nat)},
    run hash 0 st (a ++ b) = .ok (st2, o) → ∃ st1 o1 o2, run hash 0 st a = .ok (st1, o1) ∧ run hash 0 st1 b = .ok (st2, o2)
  | [], b, st, st2, o, h => ⟨st, [], o, rfl, h⟩
  | op :: a, b, st, st2, o, h => by
    simp only [List.cons_append, run] at h
    obtain ⟨r, hr, h⟩ := bind_inv h
    obtain ⟨s, hs, h⟩ := bind_inv h
    injection h with h
    injection h with h _
    subst h
    obtain ⟨st1, o1, o2, h1, h2⟩ := run_split a b (o := s.2) hs
    refine ⟨st1, r.2 :: o1, o2, ?_, h2⟩
    simp only [run]
    rw [hr, ok_bind, h1]
    rfl

theorem specRun_append : ∀ (a b : List (Op Nat Nat)) (m : List (Nat × Nat)),
    (specRun 0 m (a ++ b)).1 = (specRun 0 (specRun 0 m a).1 b).1
  | [], _, _ => rfl
  | _ :: a, b, _ => specRun_append a b _

theorem peak_append : ∀ (a b : List (Op Nat Nat)) (m : List (Nat × Nat)) (n : Nat), peak 0 m a ≤ n →
    peak 0 (specRun 0 m a).1 b ≤ n → peak 0 m (a ++ b) ≤ n
  | [], b, m, n, _, h => h
  | op :: a, b, m, n, h1, h2 => by
    simp only [List.cons_append, peak] at h1 ⊢
    exact Nat.max_le.2 ⟨by omega, peak_append a b _ n (by omega) h2⟩

/-- The table is empty after a cycle, and has held eight entries. -/
theorem cycle_spec (q : Nat) : (specRun 0 [] (cycle q)).1 = [] ∧ peak 0 [] (cycle q) ≤ 8 := by
  constructor
  · simp [cycle, specRun, Op.spec, lookup, List.range, List.range.loop]
  · simp [cycle, peak, Op.spec, lookup, List.range, List.range.loop]

theorem Inv.renew {N : Nat} {st : HS Nat Nat} {S : List Nat} (h : Inv churnHash N st S) : Inv churnHash st.cap st S :=
  ⟨h.lay, h.cap, h.core, h.size, h.cnt, h.blk, by
    have h1 := h.core.counts
    have h2 := h.size
    have h3 := h.cap
    omega, by have := h.cap; omega⟩

/-- One cycle: the table is doubled or has fewer empty slots. -/
theorem cycle_ok {st : HS Nat Nat} {S : List Nat} {N : Nat} (h : Inv churnHash N st S) (hl : live st.entries = [])
    (hcap : 127 ≤ st.cap) (hc : st.cap < 2 ^ 59) :
    ∃ q st' S' outs N', run churnHash 0 st (cycle q) = .ok (st', outs) ∧ Inv churnHash N' st' S' ∧ live st'.entries = [] ∧
      (2 * st.cap + 1 ≤ st'.cap ∨ st'.cap = st.cap ∧ S'.count EMPTY < S.count EMPTY) := by
  have h := h.renew
  have hcnt := h.cnt
  have hcounts := h.core.counts
  have hcapS := h.cap
  have hsz := h.size
  rw [hl] at hcounts hsz
  simp only [List.length_nil] at hcounts hsz
  -- a window with an empty slot
  obtain ⟨k, hk, hpow⟩ := h.core.pc
  have hmod : (S.length + 1) % 8 = 0 := by
    have : 7 ≤ k := by
      rcases Nat.lt_or_ge k 7 with h7 | h7
      · have : 2 ^ k ≤ 2 ^ 6 := Nat.pow_le_pow_right (by omega) (by omega)
        omega
      · exact h7
    rw [hpow, show k = k - 3 + 3 by omega, Nat.pow_add]
    omega
  have hempty : 7 < S.count EMPTY := by
    have hg : growthOf S.length = S.length - S.length / 8 := by unfold growthOf; rw [if_neg (by omega)]
    omega
  obtain ⟨i, hi, hil⟩ : ∃ i, S[i]? = some EMPTY ∧ i + 7 < S.length := by
    have hsplit : S.count EMPTY = (S.take (S.length - 7)).count EMPTY + (S.drop (S.length - 7)).count EMPTY := by
      rw [← List.count_append, List.take_append_drop]
    have hle : (S.drop (S.length - 7)).count EMPTY ≤ 7 := by
      refine Nat.le_trans List.count_le_length ?_
      rw [List.length_drop]; omega
    obtain ⟨i, hi⟩ := exists_of_count (S := S.take (S.length - 7)) (c := EMPTY) (by omega)
    have hlt := (List.getElem?_eq_some_iff.1 hi).1
    rw [List.length_take] at hlt
    rw [List.getElem?_take_of_lt (by omega)] at hi
    exact ⟨i, hi, by omega⟩
  refine ⟨i / 8, ?_⟩
  have hlast : 8 * (i / 8) + 7 < S.length := by omega
  obtain ⟨st', S', hr, hi', hp, _⟩ := run_ok' (hash := churnHash) (d := 0) (cycle (i / 8)) h (m := []) (by rw [hl])
    (by simp [cycle]; omega) (allowed_keeps (by simp [cycle, Op.keeps]))
  rw [(cycle_spec (i / 8)).1] at hp
  have hl' : live st'.entries = [] := hp.eq_nil
  rcases run_cap _ h (by simp [cycle]; omega) (by simp [cycle, Op.keeps]) hr with hc1 | hc1
  · -- the capacity stays
    obtain ⟨st1, o1, o2, hr1, hr2⟩ := run_split _ _ hr
    have ha := run_cap _ h (by simp; omega) (by simp [Op.keeps]) hr1
    have hwin : Win (8 * (i / 8)) 0 S := by
      intro x hx
      obtain ⟨c, hc⟩ : ∃ c, S[8 * (i / 8) + x]? = some c := ⟨_, List.getElem?_eq_getElem (by omega)⟩
      refine ⟨c, hc, by simp, fun _ => ?_⟩
      rcases h.core.sv c (List.mem_of_getElem? hc) with hq | hq | hq
      · obtain ⟨e, he⟩ := h.core.occ _ c hc (by simpa [isFull] using hq)
        have := mem_live.2 ⟨_, he⟩
        rw [hl] at this
        cases this
      · rw [hq]; rfl
      · rw [hq]; rfl
    rw [List.range_eq_range'] at hr1 hr2
    have hcap1 : st1.cap = st.cap := by
      obtain ⟨st1', S1', hr1', hi1', _, _⟩ := run_ok' (hash := churnHash) (d := 0)
        ((List.range' 0 8).map fun j => Op.emplace (8 * (i / 8) + j) 0) h (m := []) (by rw [hl])
        (by simp; omega) (allowed_keeps (by simp [Op.keeps]))
      rw [hr1] at hr1'
      injection hr1' with hr1'
      injection hr1' with hr1' _
      subst hr1'
      have hb := run_cap _ hi1' (by simp; omega) (by simp [Op.keeps]) hr2
      rcases ha with ha | ha <;> rcases hb with hb | hb <;> omega
    obtain ⟨S1, hi1, hw1, hent1, hE1⟩ := fill_win (q := i / 8) (c := S.count EMPTY) 8 0 rfl h (by omega) hwin (by rw [hl]; exact List.Perm.refl _)
      (by intro x hx; omega) hr1 hcap1 (Or.inr ⟨rfl, i % 8, by omega, by omega, by rw [show 8 * (i / 8) + i % 8 = i by omega]; exact hi⟩)
    obtain ⟨S2, hi2, hE2⟩ := drain_win (q := i / 8) 8 0 rfl hi1 (by omega)
      (by
        intro x hx
        obtain ⟨c, hc, he⟩ := hw1 x hx
        refine ⟨c, hc, fun hce => ?_⟩
        have := he.1 (by rw [hce]; rfl)
        omega)
      (fun x _ hx => hent1 x hx) hr2
    exact ⟨st', S2, _, _, hr, hi2, hl', Or.inr ⟨hc1, by omega⟩⟩
  · exact ⟨st', S', _, _, hr, hi', hl', Or.inl hc1⟩

/-- Enough cycles double the table. -/
theorem double : ∀ (n : Nat) {st : HS Nat Nat} {S : List Nat} {N : Nat}, Inv churnHash N st S → live st.entries = [] →
    127 ≤ st.cap → st.cap < 2 ^ 59 → S.count EMPTY ≤ n →
    ∃ (qs : List Nat) (st' : HS Nat Nat) (S' : List Nat) (outs : List (Out Nat)) (N' : Nat), run churnHash 0 st (qs.flatMap cycle) = .ok (st', outs) ∧ Inv churnHash N' st' S' ∧
      live st'.entries = [] ∧ 2 * st.cap + 1 ≤ st'.cap := by
  intro n
  induction n with
  | zero =>
    intro st S N h hl hc1 hc2 hE
    obtain ⟨q, st', S', outs, N', hr, hi, hl', hcase⟩ := cycle_ok h hl hc1 hc2
    rcases hcase with hcase | ⟨_, hcase⟩
    · exact ⟨[q], st', S', outs, N', by simpa using hr, hi, hl', hcase⟩
    · omega
  | succ n ih =>
    intro st S N h hl hc1 hc2 hE
    obtain ⟨q, st', S', outs, N', hr, hi, hl', hcase⟩ := cycle_ok h hl hc1 hc2
    rcases hcase with hcase | ⟨hcap, hcase⟩
    · exact ⟨[q], st', S', outs, N', by simpa using hr, hi, hl', hcase⟩
    · obtain ⟨qs, st2, S2, o2, N2, hr2, hi2, hl2, hc⟩ := ih hi hl' (by omega) (by omega) (by omega)
      exact ⟨q :: qs, st2, S2, _, N2, by rw [List.flatMap_cons]; exact run_append _ _ hr hr2, hi2, hl2, by omega⟩

theorem cycles_spec : ∀ (qs : List Nat), (specRun 0 [] (qs.flatMap cycle)).1 = [] ∧ peak 0 [] (qs.flatMap cycle) ≤ 8
  | [] => ⟨rfl, by simp [peak]⟩
  | q :: qs => by
    obtain ⟨h1, h2⟩ := cycle_spec q
    obtain ⟨h3, h4⟩ := cycles_spec qs
    rw [List.flatMap_cons]
    exact ⟨by rw [specRun_append, h1]; exact h3, peak_append _ _ _ _ h2 (by rw [h1]; exact h4)⟩

theorem reach_capacity : ∀ (k : Nat), k ≤ 52 → ∃ (qs : List Nat) (st : HS Nat Nat) (S : List Nat) (outs : List (Out Nat)) (N : Nat),
    run churnHash 0 HS.init (qs.flatMap cycle) = .ok (st, outs) ∧ Inv churnHash N st S ∧ live st.entries = [] ∧
      2 ^ (k + 7) ≤ st.cap + 1
  | 0, _ => by
    obtain ⟨st, S, hr, hi, hp, _⟩ := run_ok' (hash := churnHash) (d := 0) ((List.range 12).flatMap cycle) (Inv.init churnHash false) (m := [])
      (List.Perm.refl _) (by decide +kernel) (allowed_keeps (by decide +kernel))
    rw [(cycles_spec _).1] at hp
    have h12 : (run churnHash 0 HS.init ((List.range 12).flatMap cycle)).toOption.map (fun r => r.1.cap) = some 127 := by
      decide +kernel
    rw [show run churnHash 0 HS.init ((List.range 12).flatMap cycle) = .ok (st, _) from hr] at h12
    injection h12 with h12
    have h12 : st.cap = 127 := h12
    exact ⟨_, st, S, _, _, hr, hi, hp.eq_nil, by rw [h12]; decide⟩
  | k + 1, hk => by
    obtain ⟨qs, st, S, outs, N, hr, hi, hl, hc⟩ := reach_capacity k (by omega)
    have hp7 : 2 ^ 7 ≤ 2 ^ (k + 7) := Nat.pow_le_pow_right (by omega) (by omega)
    have hsucc : 2 ^ (k + 1 + 7) = 2 * 2 ^ (k + 7) := by rw [show k + 1 + 7 = (k + 7) + 1 by omega, Nat.pow_succ]; omega
    rcases Nat.lt_or_ge st.cap (2 ^ 59) with hlt | hge
    · obtain ⟨qs', st', S', outs', N', hr', hi', hl', hc'⟩ := double _ hi hl (by omega) hlt (Nat.le_refl _)
      exact ⟨qs ++ qs', st', S', _, N', by rw [List.flatMap_append]; exact run_append _ _ hr hr', hi', hl', by omega⟩
    · have : 2 ^ (k + 1 + 7) ≤ 2 ^ 59 + 1 := by
        rcases Nat.lt_or_ge k 52 with h' | h'
        · have : 2 ^ (k + 1 + 7) ≤ 2 ^ 59 := Nat.pow_le_pow_right (by omega) (by omega)
          omega
        · omega
      exact ⟨qs, st, S, outs, N, hr, hi, hl, by omega⟩

/-- **C117 is violated** without bound: for every capacity up to 2⁵⁹ there is a history that never holds more than eight entries
and leaves an empty table of at least that capacity. -/
theorem C117_unbounded_violated (B : Nat) (hB : B < 2 ^ 59) :
    ∃ ops : List (Op Nat Nat), peak 0 [] ops ≤ 8 ∧
      ∃ st outs, run churnHash 0 HS.init ops = .ok (st, outs) ∧ st.size = 0 ∧ B ≤ st.cap := by
  obtain ⟨qs, st, S, outs, N, hr, hi, hl, hc⟩ := reach_capacity 52 (Nat.le_refl _)
  exact ⟨_, (cycles_spec qs).2, st, outs, hr, by rw [hi.size, hl]; rfl, by omega⟩

/-- Non-vacuity (C117): one more doubling, computed. -/
example : peak 0 [] ((List.range 27).flatMap cycle) = 8 ∧
    (run churnHash 0 HS.init ((List.range 27).flatMap cycle)).map (fun r => (r.1.size, r.1.cap)) = .ok (0, 255) := by
  decide +kernel

end Cista.HS

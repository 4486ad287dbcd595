import Verif.HS.Inv

/-! # Invariant of the hash table and the operations on it -/
set_option linter.unusedSimpArgs false
set_option linter.unusedSectionVars false

namespace Cista.HS

variable {K V : Type} [DecidableEq K]

/-- The live entries in slot order. -/
def live (es : List (Option (K × V))) : List (K × V) := es.filterMap id

/-- `N` bounds the number of operations so far; it bounds the capacity, so that 64-bit masks suffice. -/
structure Inv (hash : K → Nat) (N : Nat) (st : HS K V) (S : List Nat) : Prop where
  lay : ∃ t, st.ctrl = layout S ++ t
  cap : st.cap = S.length
  core : Core hash S st.entries
  size : st.size = (live st.entries).length
  cnt : st.growth + st.size + S.count DELETED = growthOf S.length
  blk : st.block = decide (st.cap ≠ 0)
  bnd : st.size + S.count DELETED ≤ N
  cbnd : S.length ≤ 3 * N + 3

theorem Inv.mono {hash : K → Nat} {N M : Nat} {st : HS K V} {S : List Nat} (h : Inv hash N st S) (hm : N ≤ M) : Inv hash M st S :=
  ⟨h.lay, h.cap, h.core, h.size, h.cnt, h.blk, by have := h.bnd; omega, by have := h.cbnd; omega⟩

/-! ## Counting -/

theorem live_cons_some (e : K × V) (es : List (Option (K × V))) : live (some e :: es) = e :: live es := rfl

theorem live_set_some : ∀ {es : List (Option (K × V))} {i : Nat} {e : K × V}, es[i]? = some none →
    (live (es.set i (some e))).Perm (e :: live es)
  | [], i, e, h => by simp at h
  | o :: es, 0, e, h => by
    simp at h; subst h
    simp [live]
  | o :: es, i + 1, e, h => by
    have ih := live_set_some (es := es) (i := i) (e := e) (by simpa using h)
    cases o with
    | none => simpa [live] using ih
    | some f =>
      simp only [live, List.set_cons_succ, List.filterMap_cons_some, id] at ih ⊢
      exact (List.Perm.cons f ih).trans (List.Perm.swap e f _)

theorem live_set_none : ∀ {es : List (Option (K × V))} {i : Nat} {e : K × V}, es[i]? = some (some e) →
    (live es).Perm (e :: live (es.set i none))
  | [], i, e, h => by simp at h
  | o :: es, 0, e, h => by
    simp at h; subst h
    simp [live]
  | o :: es, i + 1, e, h => by
    have ih := live_set_none (es := es) (i := i) (e := e) (by simpa using h)
    cases o with
    | none => simpa [live] using ih
    | some f =>
      simp only [live, List.set_cons_succ, List.filterMap_cons_some, id] at ih ⊢
      exact (List.Perm.cons f ih).trans (List.Perm.swap e f _)

theorem mem_live {es : List (Option (K × V))} {e : K × V} : e ∈ live es ↔ ∃ i : Nat, es[i]? = some (some e) := by
  simp only [live, List.mem_filterMap, id]
  constructor
  · rintro ⟨o, ho, rfl⟩
    exact List.mem_iff_getElem?.1 ho
  · rintro ⟨i, hi⟩
    exact ⟨_, List.mem_of_getElem? hi, rfl⟩

theorem full_count : ∀ {S : List Nat} {es : List (Option (K × V))}, es.length = S.length →
    (∀ (i c : Nat) (o : Option (K × V)), S[i]? = some c → es[i]? = some o → isFull c = o.isSome) → S.countP isFull = (live es).length
  | [], [], _, _ => rfl
  | [], _ :: _, h, _ => by simp at h
  | _ :: _, [], h, _ => by simp at h
  | c :: S, o :: es, h, hp => by
    have ih := full_count (S := S) (es := es) (by simpa using h) fun i c o h1 h2 => hp (i + 1) c o (by simpa using h1) (by simpa using h2)
    have h0 := hp 0 c o (by simp) (by simp)
    cases o with
    | none => simp only [live, List.countP_cons, h0, Option.isSome_none, List.filterMap_cons_none, id] at ih ⊢; simpa using ih
    | some e => simp only [live, List.countP_cons, h0, Option.isSome_some, List.filterMap_cons_some, id, List.length_cons] at ih ⊢; simpa using ih

theorem Core.full_count {hash : K → Nat} {S : List Nat} {es : List (Option (K × V))} (c : Core hash S es) :
    S.countP isFull = (live es).length := by
  refine HS.full_count c.len fun i b o hb ho => ?_
  cases o with
  | some e =>
    have := c.tag i e ho
    rw [hb] at this; injection this with this
    rw [this, isFull_h2]; rfl
  | none =>
    cases hf : isFull b with
    | false => rfl
    | true =>
      obtain ⟨e, he⟩ := c.occ i b hb hf
      rw [ho] at he; injection he with he; cases he

theorem SV.counts : ∀ {S : List Nat}, SV S → S.countP isFull + S.count EMPTY + S.count DELETED = S.length
  | [], _ => rfl
  | c :: S, h => by
    have ih := SV.counts (S := S) fun x hx => h x (by simp [hx])
    simp only [List.countP_cons, List.count_cons, List.length_cons]
    rcases h c (by simp) with hc | hc | hc
    · have h1 : isFull c = true := by simp [isFull, hc]
      have h2 : (c == EMPTY) = false := by simp [EMPTY]; omega
      have h3 : (c == DELETED) = false := by simp [DELETED]; omega
      simp only [h1, h2, h3, if_true, Bool.false_eq_true, if_false]; omega
    · subst hc
      have h1 : isFull EMPTY = false := rfl
      have h2 : (EMPTY == EMPTY) = true := rfl
      have h3 : (EMPTY == DELETED) = false := rfl
      simp only [h1, h2, h3, if_true, Bool.false_eq_true, if_false]; omega
    · subst hc
      have h1 : isFull DELETED = false := rfl
      have h2 : (DELETED == EMPTY) = false := rfl
      have h3 : (DELETED == DELETED) = true := rfl
      simp only [h1, h2, h3, if_true, Bool.false_eq_true, if_false]; omega

theorem Core.counts {hash : K → Nat} {S : List Nat} {es : List (Option (K × V))} (c : Core hash S es) :
    (live es).length + S.count EMPTY + S.count DELETED = S.length := by
  rw [← c.full_count]; exact c.sv.counts

theorem exists_of_count {S : List Nat} {c : Nat} (h : 0 < S.count c) : ∃ i : Nat, S[i]? = some c :=
  List.mem_iff_getElem?.1 (List.count_pos_iff.1 h)

theorem Inv.hasEmpty {hash : K → Nat} {N : Nat} {st : HS K V} {S : List Nat} (h : Inv hash N st S) (x : Nat) : HasEmpty S x := by
  refine hasEmpty_of h.core.pc x ?_
  by_cases h8 : S.length + 1 < 8
  · exact Or.inr h8
  · left
    apply exists_of_count
    have h1 := h.core.counts
    have h2 := h.cnt
    have h3 := h.size
    unfold growthOf at h2
    split at h2 <;> omega

/-- The table with no entries. -/
theorem Core.fresh (hash : K → Nat) {cap : Nat} (h : PCap cap) :
    Core hash (List.replicate cap EMPTY) (List.replicate cap (none : Option (K × V))) := by
  have hno : ∀ (i : Nat) (e : K × V), (List.replicate cap (none : Option (K × V)))[i]? ≠ some (some e) := by
    intro i e he
    have := (List.mem_replicate.1 (List.mem_of_getElem? he)).2
    cases this
  constructor
  · rw [List.length_replicate]; exact h
  · intro c hc; right; left; exact (List.mem_replicate.1 hc).2
  · simp
  · intro i c hc hf
    rw [(List.mem_replicate.1 (List.mem_of_getElem? hc)).2] at hf; cases hf
  · exact fun i e he => absurd he (hno i e)
  · exact fun i e he => absurd he (hno i e)
  · exact fun i j e f he => absurd he (hno i e)

theorem live_replicate (n : Nat) : live (List.replicate n (none : Option (K × V))) = [] := by
  induction n with
  | zero => rfl
  | succ n ih => simpa [live, List.replicate_succ] using ih

theorem pcap_zero : PCap 0 := ⟨0, by omega, rfl⟩

theorem Inv.init (hash : K → Nat) {V : Type} (b : Bool) : Inv hash 0 ({ (HS.init : HS K V) with self := b }) [] where
  lay := ⟨List.replicate 7 EMPTY, rfl⟩
  cap := rfl
  core := Core.fresh hash (cap := 0) pcap_zero
  size := rfl
  cnt := rfl
  blk := rfl
  bnd := by simp [HS.init]
  cbnd := by simp

theorem freshCtrl_layout (cap : Nat) : freshCtrl cap = layout (List.replicate cap EMPTY) := by
  apply List.ext_getElem?
  intro p
  unfold freshCtrl
  by_cases hp : p < cap + 9
  · rw [layout_get (by simpa using hp), List.getElem?_set, List.length_replicate, List.getElem?_replicate, if_pos hp]
    rcases byteAt_cases (S := List.replicate cap EMPTY) p with ⟨i, c, h1, h2, h3⟩ | ⟨_, ⟨h1, h3⟩ | ⟨h1, h3⟩⟩
    · have h4 := (List.mem_replicate.1 (List.mem_of_getElem? h2)).2
      rw [List.length_replicate] at h1
      have := slotOf_some.1 h1
      rw [if_neg (by omega), h3, h4]
    · rw [List.length_replicate] at h1
      rw [if_pos h1.symm, if_pos (by omega), h3]
    · rw [List.length_replicate] at h1
      rw [if_neg (fun h => h1 h.symm), h3]
  · rw [List.getElem?_eq_none (by simp; omega), List.getElem?_eq_none (by simp [layout_length]; omega)]

/-! ## Moving the entries to a new table -/

theorem count_set_eq {S : List Nat} {i c b a : Nat} (h : S[i]? = some c) :
    (S.set i b).count a + (if c = a then 1 else 0) = S.count a + (if b = a then 1 else 0) := by
  have hi := (List.getElem?_eq_some_iff.1 h)
  obtain ⟨hl, he⟩ := hi
  rw [List.count_set hl, he]
  by_cases hc : c = a
  · subst hc
    have : 0 < S.count c := List.count_pos_iff.2 (List.mem_of_getElem? h)
    simp; omega
  · simp [hc]

theorem live_append (a b : List (Option (K × V))) : live (a ++ b) = live a ++ live b := by simp [live]

theorem moveOne_ok {hash : K → Nat} {S : List Nat} {es : List (Option (K × V))} (c : Core hash S es) (e : K × V)
    (hroom : (live es).length < S.length) (hdel : S.count DELETED = 0)
    (habs : ∀ (j : Nat) (f : K × V), es[j]? = some (some f) → f.1 ≠ e.1) :
    ∃ S' es', moveOne hash S.length e (layout S, es) = .ok (layout S', es') ∧ Core hash S' es' ∧ S'.length = S.length ∧
      S'.count DELETED = 0 ∧ (live es').Perm (e :: live es) := by
  have hcnt := c.counts
  obtain ⟨i0, hi0⟩ := exists_of_count (S := S) (c := EMPTY) (by omega)
  obtain ⟨i, ci, hff, hS, hE, hr⟩ := findFirst_slot [] c.pc c.sv (hash e.1) hi0 isED_EMPTY
  rw [List.append_nil] at hff
  obtain ⟨hnone, hcore⟩ := c.put (e := e) hS hE hr habs
  have hl := (List.getElem?_eq_some_iff.1 hS).1
  have hset := setCtrl_layout (t := []) (h2 (hash e.1)) c.pc hl
  rw [List.append_nil, List.append_nil] at hset
  refine ⟨S.set i (h2 (hash e.1)), es.set i (some e), ?_, hcore, by simp, ?_, live_set_some hnone⟩
  · unfold moveOne
    dsimp only
    rw [hff, ok_bind, hset, ok_bind]
    unfold construct
    rw [hnone]; rfl
  · have := count_set_eq (b := h2 (hash e.1)) (a := DELETED) hS
    have hne : h2 (hash e.1) ≠ DELETED := by have := h2_lt (hash e.1); unfold DELETED; omega
    rw [if_neg hne] at this
    omega

theorem moveLoop_ok {hash : K → Nat} {So t : List Nat} {oe : List (Option (K × V))} (co : Core hash So oe) {ncap : Nat}
    (hroom : (live oe).length ≤ ncap) : ∀ (n i : Nat) (S : List Nat) (es : List (Option (K × V))), i + n = So.length → Core hash S es → S.length = ncap →
      S.count DELETED = 0 → (live es).Perm (live (oe.take i)) →
      ∃ S' es', moveLoop hash ncap (layout So ++ t) oe n i (layout S, es) = .ok (layout S', es') ∧ Core hash S' es' ∧ S'.length = ncap ∧
        S'.count DELETED = 0 ∧ (live es').Perm (live oe)
  | 0, i, S, es, hi, c, hS, hd, hp => by
    refine ⟨S, es, rfl, c, hS, hd, ?_⟩
    rw [List.take_of_length_le (by rw [co.len]; omega)] at hp
    exact hp
  | n + 1, i, S, es, hi, c, hS, hd, hp => by
    have hil : i < So.length := by omega
    have hio : i < oe.length := by rw [co.len]; exact hil
    have hSi : So[i]? = some So[i] := List.getElem?_eq_getElem hil
    have htake : oe.take (i + 1) = oe.take i ++ [oe[i]] := by rw [List.take_succ_eq_append_getElem hio]
    unfold moveLoop
    rw [ctrlAt_layout (by omega), ok_bind, byteAt_slot hSi]
    cases hf : isFull So[i] with
    | false =>
      simp only [Bool.false_eq_true, if_false]
      refine moveLoop_ok co hroom n (i + 1) S es (by omega) c hS hd ?_
      have hno : oe[i] = none := by
        cases ho : oe[i] with
        | none => rfl
        | some e =>
          have := co.tag i e (by rw [List.getElem?_eq_getElem hio, ho])
          rw [hSi] at this; injection this with this
          rw [this, isFull_h2] at hf; cases hf
      rw [htake, live_append, hno]
      simpa [live] using hp
    | true =>
      simp only [if_true]
      obtain ⟨e, he⟩ := co.occ i _ hSi hf
      have hoe : oe[i] = some e := by
        rw [List.getElem?_eq_getElem hio] at he; injection he
      have hE : entryAt oe i = .ok e := by unfold entryAt; rw [he]
      rw [hE, ok_bind]
      have hlen : (live (oe.take (i + 1))).length ≤ (live oe).length := by
        have : live oe = live (oe.take (i + 1)) ++ live (oe.drop (i + 1)) := by rw [← live_append, List.take_append_drop]
        rw [this, List.length_append]; omega
      have hl1 : live (oe.take (i + 1)) = live (oe.take i) ++ [e] := by
        rw [htake, live_append, hoe]; simp [live]
      have hlt : (live es).length < S.length := by
        rw [hl1, List.length_append] at hlen
        rw [hp.length_eq, hS]; simp at hlen; omega
      obtain ⟨S', es', hm, hc', hl', hd', hp'⟩ := moveOne_ok c e hlt hd (by
        intro j f hf' hk
        have hmem : f ∈ live (oe.take i) := hp.mem_iff.1 (mem_live.2 ⟨j, hf'⟩)
        obtain ⟨i', hi'⟩ := mem_live.1 hmem
        have hlt : i' < i := by
          have := (List.getElem?_eq_some_iff.1 hi').1
          simp at this; omega
        rw [List.getElem?_take_of_lt hlt] at hi'
        have := co.dist i' i f e hi' he hk
        omega)
      rw [hS] at hm
      rw [hm, ok_bind]
      refine moveLoop_ok co hroom n (i + 1) S' es' (by omega) hc' (by omega) hd' ?_
      rw [hl1]
      refine hp'.trans ((hp.cons e).trans ?_)
      exact (List.perm_append_singleton e _).symm

theorem resize_ok {hash : K → Nat} {N : Nat} {st : HS K V} {S : List Nat} (h : Inv hash N st S) {ncap : Nat} (hc : PCap ncap)
    (h0 : ncap ≠ 0) (hg : st.size ≤ growthOf ncap) (hb : ncap ≤ 3 * N + 3) :
    ∃ st' S', resize hash st ncap = .ok st' ∧ Inv hash N st' S' ∧ st'.cap = ncap ∧ (live st'.entries).Perm (live st.entries) ∧
      st'.ctrl = layout S' ∧ st'.growth = growthOf ncap - st.size ∧ S'.count DELETED = 0 := by
  obtain ⟨t, ht⟩ := h.lay
  have hgle : growthOf ncap ≤ ncap := by unfold growthOf; split <;> omega
  have hsz := h.size
  have hbnd := h.bnd
  obtain ⟨S', es', hm, hcore, hl, hd, hp⟩ := moveLoop_ok (t := t) h.core (ncap := ncap) (by omega) S.length 0
    (List.replicate ncap EMPTY) (List.replicate ncap none) (by omega) (Core.fresh hash hc) (by simp)
    (by rw [List.count_eq_zero]; intro hmem; have := (List.mem_replicate.1 hmem).2; cases this)
    (by rw [live_replicate]; exact List.Perm.refl _)
  refine ⟨⟨layout S', es', st.size, ncap, growthOf ncap - st.size, true, true⟩, S', ?_, ?_, rfl, hp, rfl, rfl, hd⟩
  · unfold resize
    rw [freshCtrl_layout, ht, h.cap, hm, ok_bind, if_neg]
    rintro ⟨h1, h2, _⟩
    rw [h.blk, h.cap] at h2
    simp at h2; exact h2 (List.eq_nil_of_length_eq_zero h1)
  · exact ⟨⟨[], by simp⟩, hl.symm, hcore, by rw [hsz]; exact hp.length_eq.symm, by rw [hd, hl]; dsimp only; omega,
      by simp [h0], by rw [hd]; dsimp only; omega, by rw [hl]; exact hb⟩

theorem grow_ok {hash : K → Nat} {N : Nat} {st : HS K V} {S : List Nat} (h : Inv hash N st S) (hN : N < 2 ^ 60) (hg : st.growth = 0) :
    ∃ st' S', grow hash st = .ok st' ∧ Inv hash N st' S' ∧ (live st'.entries).Perm (live st.entries) ∧
      st'.ctrl = layout S' ∧ 0 < st'.growth ∧ S'.count DELETED = 0 := by
  have hcnt := h.cnt
  have hb := h.bnd
  have hcb := h.cbnd
  have hcap := h.cap
  obtain ⟨k, hk, hk2⟩ := h.core.pc
  have hkl : k < 62 := by
    rcases Nat.lt_or_ge k 62 with h' | h'
    · exact h'
    · have : 2 ^ 62 ≤ 2 ^ k := Nat.pow_le_pow_right (by omega) h'
      omega
  have hnc : PCap (S.length * 2 + 1) := ⟨k + 1, by omega, by rw [Nat.pow_succ]; omega⟩
  unfold grow
  have hval : (if st.cap = 0 then 1 else st.cap * 2 + 1) = S.length * 2 + 1 := by rw [hcap]; split <;> omega
  rw [hval]
  have hgo : growthOf S.length < growthOf (S.length * 2 + 1) ∧ S.length * 2 + 1 ≤ 3 * (growthOf S.length) + 3 := by
    unfold growthOf
    have := h.core.pc.small
    constructor
    · split <;> split <;> omega
    · split <;> omega
  obtain ⟨st', S', h1, h2, h3, h4, h5, h6, h7⟩ := resize_ok h hnc (by omega) (by omega) (by omega)
  exact ⟨st', S', h1, h2, h4, h5, by omega, h7⟩

/-! ## Insertion -/

/-- What `prepare_insert` establishes before marking the slot. -/
structure Ready (hash : K → Nat) (N : Nat) (st st1 : HS K V) (S1 t1 : List Nat) (h i c : Nat) : Prop where
  inv : Inv hash N st1 S1
  perm : (live st1.entries).Perm (live st.entries)
  lay : st1.ctrl = layout S1 ++ t1
  slot : S1[i]? = some c
  free : isED c = true
  reach : Reach S1 (h1 h) i
  room : c = EMPTY → 0 < st1.growth

theorem prepareInsert_ok {hash : K → Nat} {N : Nat} {st : HS K V} {S : List Nat} (h : Inv hash N st S) (hN : N < 2 ^ 60) (x : Nat) :
    ∃ st1 S1 t1 i c, prepareInsert hash st x = takeSlot st1 i (h2 x) ∧ Ready hash N st st1 S1 t1 x i c ∧
      S1.count DELETED ≤ S.count DELETED := by
  obtain ⟨t, ht⟩ := h.lay
  have hcounts := h.core.counts
  have hcnt := h.cnt
  have hsz := h.size
  -- growing leaves a free slot
  have hgrow : st.growth = 0 → ∃ st1 S1 i c, (do
      let st' ← grow hash st
      let t' ← findFirst st'.ctrl st'.cap x
      takeSlot st' t' (h2 x)) = takeSlot st1 i (h2 x) ∧ Ready hash N st st1 S1 [] x i c ∧ S1.count DELETED = 0 := by
    intro hg
    obtain ⟨st1, S1, hgr, hinv, hperm, hlay, hpos, hdel⟩ := grow_ok h hN hg
    have c1 := hinv.core.counts
    have c2 := hinv.cnt
    have c3 := hinv.size
    have hle : growthOf S1.length ≤ S1.length := by unfold growthOf; split <;> omega
    obtain ⟨i0, hi0⟩ := exists_of_count (S := S1) (c := EMPTY) (by omega)
    obtain ⟨i, c, hff, hS, hE, hr⟩ := findFirst_slot [] hinv.core.pc hinv.core.sv x hi0 isED_EMPTY
    rw [List.append_nil] at hff
    refine ⟨st1, S1, i, c, ?_, ⟨hinv, hperm, by rw [List.append_nil]; exact hlay, hS, hE, hr, fun _ => hpos⟩, hdel⟩
    rw [hgr, ok_bind, hlay, hinv.cap, hff, ok_bind]
  unfold prepareInsert
  by_cases hfree : ∃ (i0 c0 : Nat), S[i0]? = some c0 ∧ isED c0 = true
  · obtain ⟨i0, c0, h0, hE0⟩ := hfree
    obtain ⟨i, c, hff, hS, hE, hr⟩ := findFirst_slot t h.core.pc h.core.sv x h0 hE0
    have hil := (List.getElem?_eq_some_iff.1 hS).1
    rw [ht, h.cap, hff, ok_bind, ctrlAt_layout (by omega), ok_bind, byteAt_slot hS]
    by_cases hc : st.growth = 0 ∧ c ≠ DELETED
    · rw [if_pos hc]
      obtain ⟨st1, S1, i1, c1, he, hr1, hd1⟩ := hgrow hc.1
      exact ⟨st1, S1, [], i1, c1, he, hr1, by omega⟩
    · rw [if_neg hc]
      refine ⟨st, S, t, i, c, rfl, ⟨h, List.Perm.refl _, ht, hS, hE, hr, fun hce => ?_⟩, Nat.le_refl _⟩
      rcases Nat.eq_zero_or_pos st.growth with h0 | h0
      · exact absurd ⟨h0, by rw [hce]; decide⟩ hc
      · exact h0
  · -- every slot is full: the table is small and has no growth left
    have hnoED : ∀ c ∈ S, isED c = false := by
      intro c hc
      obtain ⟨i, hi⟩ := List.mem_iff_getElem?.1 hc
      cases hE : isED c with
      | false => rfl
      | true => exact absurd ⟨i, c, hi, hE⟩ hfree
    have he0 : S.count EMPTY = 0 := by
      rw [List.count_eq_zero]; intro hm; have := hnoED _ hm; cases this
    have hd0 : S.count DELETED = 0 := by
      rw [List.count_eq_zero]; intro hm; have := hnoED _ hm; cases this
    have h8 : S.length + 1 < 8 := by
      rcases Nat.lt_or_ge (S.length + 1) 8 with h' | h'
      · exact h'
      · unfold growthOf at hcnt; split at hcnt <;> omega
    have hg : st.growth = 0 := by unfold growthOf at hcnt; split at hcnt <;> omega
    rw [ht, h.cap, findFirst_full t h.core.pc h.core.sv x h8 hnoED, ok_bind, ctrlAt_layout (by omega), ok_bind, byteAt_end,
      if_pos ⟨hg, by decide⟩]
    obtain ⟨st1, S1, i1, c1, he, hr1, hd1⟩ := hgrow hg
    exact ⟨st1, S1, [], i1, c1, he, hr1, by omega⟩

/-- Marking the slot and constructing the entry. -/
theorem Ready.finish {hash : K → Nat} {N : Nat} {st st1 : HS K V} {S1 t1 : List Nat} {i c : Nat} {e : K × V}
    (r : Ready hash N st st1 S1 t1 (hash e.1) i c) (habs : ∀ f ∈ live st.entries, f.1 ≠ e.1) :
    ∃ st2, takeSlot st1 i (h2 (hash e.1)) = .ok (st2, i) ∧ st2.entries = st1.entries ∧ st1.entries[i]? = some none ∧
      Inv hash (N + 1) { st2 with entries := st1.entries.set i (some e) } (S1.set i (h2 (hash e.1))) ∧
      (live (st1.entries.set i (some e))).Perm (e :: live st.entries) ∧
      (S1.set i (h2 (hash e.1))).count DELETED ≤ S1.count DELETED := by
  have hil := (List.getElem?_eq_some_iff.1 r.slot).1
  obtain ⟨hnone, hcore⟩ := r.inv.core.put r.slot r.free r.reach (e := e) (fun j f hf =>
    habs f (r.perm.mem_iff.1 (mem_live.2 ⟨j, hf⟩)))
  have hcount := count_set_eq (b := h2 (hash e.1)) (a := DELETED) r.slot
  have hne : h2 (hash e.1) ≠ DELETED := by have := h2_lt (hash e.1); unfold DELETED; omega
  rw [if_neg hne] at hcount
  have hcnt := r.inv.cnt
  have hsz := r.inv.size
  have hb := r.inv.bnd
  have hcb := r.inv.cbnd
  have hlive := live_set_some (e := e) hnone
  have hroom := r.room
  have hED : c = EMPTY ∨ c = DELETED := by
    rcases r.inv.core.sv c (List.mem_of_getElem? r.slot) with h | h | h
    · have := r.free; simp [isED] at this; omega
    · exact Or.inl h
    · exact Or.inr h
  have hDE : DELETED ≠ EMPTY := by decide
  refine ⟨{ st1 with size := st1.size + 1, growth := st1.growth - (if c = EMPTY then 1 else 0), ctrl := layout (S1.set i (h2 (hash e.1))) ++ t1 },
    ?_, rfl, hnone, ?_, hlive.trans (r.perm.cons e), by omega⟩
  · unfold takeSlot
    rw [r.lay, ctrlAt_layout (by omega), ok_bind, byteAt_slot r.slot, r.inv.cap, setCtrl_layout _ r.inv.core.pc hil, ok_bind]
  · refine ⟨⟨t1, rfl⟩, by simpa using r.inv.cap, hcore, ?_, ?_, r.inv.blk, ?_, by simp; omega⟩
    · dsimp only; rw [hlive.length_eq, List.length_cons, hsz]
    · dsimp only; rw [List.length_set]
      rcases hED with rfl | rfl
      · rw [if_neg (fun h => hDE h.symm)] at hcount
        have := hroom rfl
        rw [if_pos rfl]; omega
      · rw [if_pos rfl] at hcount
        rw [if_neg hDE]; omega
    · dsimp only
      rcases hED with rfl | rfl
      · rw [if_neg (fun h => hDE h.symm)] at hcount; omega
      · rw [if_pos rfl] at hcount; omega

/-! ## Lookup -/

theorem Inv.find_some {hash : K → Nat} {N : Nat} {st : HS K V} {S : List Nat} (h : Inv hash N st S) {k : K} {v : V} {i : Nat}
    (he : st.entries[i]? = some (some (k, v))) : find hash st k = .ok (some i) := by
  obtain ⟨t, ht⟩ := h.lay
  exact findN_present ht h.cap h.core he (h.hasEmpty _) (by omega)

theorem Inv.find_none {hash : K → Nat} {N : Nat} {st : HS K V} {S : List Nat} (h : Inv hash N st S) {k : K}
    (habs : ∀ f ∈ live st.entries, f.1 ≠ k) : find hash st k = .ok none := by
  obtain ⟨t, ht⟩ := h.lay
  exact findN_absent ht h.cap h.core (fun i e he => habs e (mem_live.2 ⟨i, he⟩)) (h.hasEmpty _) (by omega)

/-- Either the key is in exactly one slot or absent. -/
theorem Inv.find_cases {hash : K → Nat} {N : Nat} {st : HS K V} {S : List Nat} (h : Inv hash N st S) (k : K) :
    (∃ (i : Nat) (v : V), find hash st k = .ok (some i) ∧ st.entries[i]? = some (some (k, v)) ∧ (k, v) ∈ live st.entries) ∨
      (find hash st k = .ok none ∧ ∀ f ∈ live st.entries, f.1 ≠ k) := by
  by_cases hex : ∃ f ∈ live st.entries, f.1 = k
  · obtain ⟨⟨k', v⟩, hf, rfl⟩ := hex
    obtain ⟨i, hi⟩ := mem_live.1 hf
    exact Or.inl ⟨i, v, h.find_some hi, hi, hf⟩
  · have : ∀ f ∈ live st.entries, f.1 ≠ k := fun f hf hk => hex ⟨f, hf, hk⟩
    exact Or.inr ⟨h.find_none this, this⟩

theorem Inv.nodup {hash : K → Nat} {N : Nat} {st : HS K V} {S : List Nat} (h : Inv hash N st S) :
    ((live st.entries).map Prod.fst).Nodup := by
  have hd := h.core.dist
  generalize st.entries = es at hd
  clear h
  induction es with
  | nil => simp [live]
  | cons o es ih =>
    have ih := ih fun i j e f he hf hk => by
      have := hd (i + 1) (j + 1) e f (by simpa using he) (by simpa using hf) hk
      omega
    cases o with
    | none => simpa [live] using ih
    | some e =>
      rw [live_cons_some, List.map_cons, List.nodup_cons]
      refine ⟨fun hm => ?_, ih⟩
      obtain ⟨f, hf, hk⟩ := List.mem_map.1 hm
      obtain ⟨j, hj⟩ := mem_live.1 hf
      have := hd 0 (j + 1) e f (by simp) (by simpa using hj) hk.symm
      omega

/-! ## Modification -/

theorem emplace_absent {hash : K → Nat} {N : Nat} {st : HS K V} {S : List Nat} (h : Inv hash N st S) (hN : N < 2 ^ 60) {e : K × V}
    (habs : ∀ f ∈ live st.entries, f.1 ≠ e.1) :
    ∃ st' S' i, emplace hash st e = .ok (st', i, true) ∧ Inv hash (N + 1) st' S' ∧ st'.entries[i]? = some (some e) ∧
      (live st'.entries).Perm (e :: live st.entries) ∧ S'.count DELETED ≤ S.count DELETED := by
  obtain ⟨st1, S1, t1, i, c, hp, hr, hd⟩ := prepareInsert_ok h hN (hash e.1)
  obtain ⟨st2, ht, hes, hnone, hinv, hperm, hd2⟩ := hr.finish habs
  refine ⟨{ st2 with entries := st1.entries.set i (some e) }, _, i, ?_, hinv, ?_, hperm, Nat.le_trans hd2 hd⟩
  · unfold emplace findOrPrepare
    rw [h.find_none habs]
    simp only [ok_bind]
    rw [hp, ht]
    simp only [ok_bind, if_true]
    unfold construct
    rw [hes, hnone]; rfl
  · exact List.getElem?_set_self (List.getElem?_eq_some_iff.1 hnone).1

theorem emplace_present {hash : K → Nat} {N : Nat} {st : HS K V} {S : List Nat} (h : Inv hash N st S) {e : K × V} {v : V} {i : Nat}
    (he : st.entries[i]? = some (some (e.1, v))) : emplace hash st e = .ok (st, i, false) := by
  unfold emplace findOrPrepare
  rw [h.find_some he]; rfl

theorem bracket_absent {hash : K → Nat} {N : Nat} {st : HS K V} {S : List Nat} (h : Inv hash N st S) (hN : N < 2 ^ 60) (d : V) {k : K}
    (habs : ∀ f ∈ live st.entries, f.1 ≠ k) :
    ∃ st' S' i, bracket hash d st k = .ok (st', i) ∧ Inv hash (N + 1) st' S' ∧ st'.entries[i]? = some (some (k, d)) ∧
      (live st'.entries).Perm ((k, d) :: live st.entries) ∧ S'.count DELETED ≤ S.count DELETED := by
  obtain ⟨st1, S1, t1, i, c, hp, hr, hd⟩ := prepareInsert_ok h hN (hash k)
  obtain ⟨st2, ht, hes, hnone, hinv, hperm, hd2⟩ := Ready.finish (e := (k, d)) hr habs
  refine ⟨{ st2 with entries := st1.entries.set i (some (k, d)) }, _, i, ?_, hinv, ?_, hperm, Nat.le_trans hd2 hd⟩
  · unfold bracket findOrPrepare
    rw [h.find_none habs]
    simp only [ok_bind]
    rw [hp, ht]
    simp only [ok_bind, if_true]
    unfold construct
    rw [hes, hnone]; rfl
  · exact List.getElem?_set_self (List.getElem?_eq_some_iff.1 hnone).1

theorem bracket_present {hash : K → Nat} {N : Nat} {st : HS K V} {S : List Nat} (h : Inv hash N st S) (d : V) {k : K} {v : V} {i : Nat}
    (he : st.entries[i]? = some (some (k, v))) : bracket hash d st k = .ok (st, i) := by
  unfold bracket findOrPrepare
  rw [h.find_some he]
  simp only [ok_bind, Bool.false_eq_true, if_false]
  unfold entryAt
  rw [he]; rfl

theorem live_replace {es : List (Option (K × V))} {i : Nat} {e e' : K × V} (h : es[i]? = some (some e)) :
    (live (es.set i (some e'))).Perm (e' :: live (es.set i none)) := by
  have hi := (List.getElem?_eq_some_iff.1 h).1
  have := live_set_some (es := es.set i none) (i := i) (e := e') (List.getElem?_set_self hi)
  rwa [List.set_set] at this

theorem assignAt_ok {hash : K → Nat} {N : Nat} {st : HS K V} {S : List Nat} (h : Inv hash N st S) {k : K} {v : V} (v' : V) {i : Nat}
    (he : st.entries[i]? = some (some (k, v))) :
    ∃ st', assignAt st i v' = .ok st' ∧ Inv hash N st' S ∧ st'.entries = st.entries.set i (some (k, v')) := by
  refine ⟨{ st with entries := st.entries.set i (some (k, v')) }, ?_, ?_, rfl⟩
  · unfold assignAt entryAt; rw [he]; rfl
  · refine ⟨h.lay, h.cap, h.core.assign he, ?_, h.cnt, h.blk, h.bnd, h.cbnd⟩
    dsimp only
    rw [(live_replace he).length_eq, h.size, (live_set_none he).length_eq]; rfl

theorem eraseAt_ok {hash : K → Nat} {N : Nat} {st : HS K V} {S : List Nat} (h : Inv hash N st S) {e : K × V} {i : Nat}
    (he : st.entries[i]? = some (some e)) :
    ∃ st' S', eraseAt st i = .ok st' ∧ Inv hash N st' S' ∧ st'.entries = st.entries.set i none ∧
      (live st.entries).Perm (e :: live st'.entries) := by
  obtain ⟨t, ht⟩ := h.lay
  have hS := h.core.tag i e he
  have hil := (List.getElem?_eq_some_iff.1 hS).1
  have hnE : h2 (hash e.1) ≠ EMPTY := by have := h2_lt (hash e.1); unfold EMPTY; omega
  have hnD : h2 (hash e.1) ≠ DELETED := by have := h2_lt (hash e.1); unfold DELETED; omega
  obtain ⟨b, hb, hbw⟩ := wasNeverFull_spec t h.core.pc h.core.sv hS hnE
  have hlive := live_set_none he
  refine ⟨{ st with entries := st.entries.set i none, size := st.size - 1, ctrl := layout (S.set i (if b = true then EMPTY else DELETED)) ++ t, growth := st.growth + (if b = true then 1 else 0) },
    S.set i (if b = true then EMPTY else DELETED), ?_, ?_, rfl, hlive⟩
  · unfold eraseAt eraseMeta entryAt
    rw [he]
    simp only [ok_bind]
    rw [ht, h.cap, hb, ok_bind, setCtrl_layout _ h.core.pc hil, ok_bind]
  · have hcount := count_set_eq (b := if b = true then EMPTY else DELETED) (a := DELETED) hS
    have hcnt := h.cnt
    have hb' := h.bnd
    have hlen := hlive.length_eq
    rw [List.length_cons] at hlen
    have hsz := h.size
    rw [if_neg hnD] at hcount
    refine ⟨⟨t, rfl⟩, by simpa using h.cap, h.core.remove he ?_, ?_, ?_, h.blk, ?_, by simpa using h.cbnd⟩
    · cases b with
      | false => exact Or.inl rfl
      | true => exact Or.inr ⟨rfl, hbw rfl⟩
    · dsimp only; omega
    · dsimp only; rw [List.length_set]
      have hED : EMPTY ≠ DELETED := by decide
      cases b with
      | false => simp only [Bool.false_eq_true, if_false, if_true] at hcount ⊢; omega
      | true => simp only [if_true, if_neg hED] at hcount ⊢; omega
    · dsimp only
      have hED : EMPTY ≠ DELETED := by decide
      cases b with
      | false => simp only [Bool.false_eq_true, if_false, if_true] at hcount ⊢; omega
      | true => simp only [if_true, if_neg hED] at hcount ⊢; omega

theorem destroyLoop_ok {hash : K → Nat} {S t : List Nat} {es0 : List (Option (K × V))} (c : Core hash S es0) :
    ∀ (n i : Nat) (es : List (Option (K × V))), i + n = S.length → es.length = S.length → (∀ j : Nat, i ≤ j → es[j]? = es0[j]?) →
      (∀ (j : Nat) (o : Option (K × V)), j < i → es[j]? = some o → o = none) →
      ∃ es', destroyLoop (layout S ++ t) n i es = .ok es' ∧ es'.all Option.isNone = true
  | 0, i, es, hi, hl, _, hn => by
    refine ⟨es, rfl, ?_⟩
    rw [List.all_eq_true]
    intro o ho
    obtain ⟨j, hj⟩ := List.mem_iff_getElem?.1 ho
    have := (List.getElem?_eq_some_iff.1 hj).1
    rw [hn j o (by omega) hj]; rfl
  | n + 1, i, es, hi, hl, hsame, hn => by
    have hil : i < S.length := by omega
    have hSi : S[i]? = some S[i] := List.getElem?_eq_getElem hil
    unfold destroyLoop
    rw [ctrlAt_layout (by omega), ok_bind, byteAt_slot hSi]
    cases hf : isFull S[i] with
    | false =>
      simp only [Bool.false_eq_true, if_false]
      refine destroyLoop_ok c n (i + 1) es (by omega) hl (fun j hj => hsame j (by omega)) fun j o hj ho => ?_
      by_cases hji : j = i
      · subst hji
        cases o with
        | none => rfl
        | some e =>
          rw [hsame j (by omega)] at ho
          have := c.tag j e ho
          rw [hSi] at this; injection this with this
          rw [this, isFull_h2] at hf; cases hf
      · exact hn j o (by omega) ho
    | true =>
      simp only [if_true]
      obtain ⟨e, he⟩ := c.occ i _ hSi hf
      have hE : entryAt es i = .ok e := by unfold entryAt; rw [hsame i (by omega), he]
      rw [hE, ok_bind]
      refine destroyLoop_ok c n (i + 1) (es.set i none) (by omega) (by simpa using hl) (fun j hj => ?_) fun j o hj ho => ?_
      · rw [List.getElem?_set_ne (by omega)]; exact hsame j (by omega)
      · by_cases hji : j = i
        · subst hji
          rw [List.getElem?_set_self (by omega)] at ho
          injection ho with ho; exact ho.symm
        · rw [List.getElem?_set_ne (by omega)] at ho
          exact hn j o (by omega) ho

theorem clear_ok {hash : K → Nat} {N : Nat} {st : HS K V} {S : List Nat} (h : Inv hash N st S) :
    ∃ st' S', clear st = .ok st' ∧ Inv hash 0 st' S' ∧ live st'.entries = [] ∧ st'.cap = 0 ∧ S' = [] := by
  obtain ⟨t, ht⟩ := h.lay
  unfold clear
  by_cases h0 : st.cap = 0
  · rw [if_pos h0]
    have hS : S = [] := List.eq_nil_of_length_eq_zero (by rw [← h.cap]; exact h0)
    subst hS
    have hes : st.entries = [] := List.eq_nil_of_length_eq_zero (by rw [h.core.len]; rfl)
    refine ⟨st, [], rfl, ⟨h.lay, h.cap, h.core, h.size, h.cnt, h.blk, ?_, by simp⟩, by rw [hes]; rfl, h0, rfl⟩
    rw [h.size, hes]; simp [live]
  · rw [if_neg h0]
    obtain ⟨es', hd, hall⟩ := destroyLoop_ok (t := t) h.core S.length 0 st.entries (by omega) h.core.len (fun _ _ => rfl)
      (by intro j o hj; omega)
    rw [ht, h.cap, hd, ok_bind, if_pos hall]
    exact ⟨_, [], rfl, Inv.init hash st.self, rfl, rfl, rfl⟩

theorem destroy_ok {hash : K → Nat} {N : Nat} {st : HS K V} {S : List Nat} (h : Inv hash N st S) : destroy st = .ok () := by
  obtain ⟨st', S', hc, hi, _, h0, _⟩ := clear_ok h
  unfold destroy
  have := hi.blk
  rw [hc, ok_bind, if_neg]
  rintro ⟨h1, _⟩
  rw [h1, h0] at this; simp at this

/-! ## Iteration -/

theorem byteAt_bound {S : List Nat} (sv : SV S) {i : Nat} (hi : i < S.length) (h : isED (byteAt S i) = false) : isFull (byteAt S i) = true := by
  have hS : S[i]? = some S[i] := List.getElem?_eq_getElem hi
  rw [byteAt_slot hS] at h ⊢
  rcases sv S[i] (List.getElem_mem hi) with h' | h' | h'
  · simp [isFull, h']
  · rw [h'] at h; cases h
  · rw [h'] at h; cases h

/-- `skip_empty_or_deleted` stops at the next full slot or at the end. -/
theorem skip_ok {S : List Nat} (t : List Nat) (sv : SV S) : ∀ (f i : Nat), i ≤ S.length → S.length < i + f →
    ∃ j, skip (layout S ++ t) f i = .ok j ∧ i ≤ j ∧ j ≤ S.length ∧ (∀ p, i ≤ p → p < j → isED (byteAt S p) = true) ∧
      isED (byteAt S j) = false
  | 0, i, h1, h2 => by omega
  | f + 1, i, h1, h2 => by
    unfold skip
    rw [ctrlAt_layout (by omega), ok_bind]
    cases hE : isED (byteAt S i) with
    | false => exact ⟨i, by simp, by omega, h1, by intro p hp hp'; omega, hE⟩
    | true =>
      simp only [if_true]
      have hil : i < S.length := by
        rcases Nat.lt_or_ge i S.length with h | h
        · exact h
        · have : i = S.length := by omega
          rw [this, byteAt_end] at hE; cases hE
      rw [group_layout h1, ok_bind]
      obtain ⟨hc8, hlo, hhi⟩ := countED_spec (win_grp sv i)
      have hpos : countED (win S i) ≠ 0 := by
        intro h0
        have := hhi (byteAt S i) (by rw [h0]; exact win_get (by omega))
        rw [hE] at this; cases this
      have hle : i + countED (win S i) ≤ S.length := by
        rcases Nat.lt_or_ge (S.length - i) (countED (win S i)) with h | h
        · have := hlo (S.length - i) (byteAt S S.length) h (by
            rw [win_get (by omega)]; congr 2; omega)
          rw [byteAt_end] at this; cases this
        · omega
      obtain ⟨j, hj, h3, h4, h5, h6⟩ := skip_ok t sv f (i + countED (win S i)) hle (by omega)
      refine ⟨j, hj, by omega, h4, fun p hp hp' => ?_, h6⟩
      rcases Nat.lt_or_ge p (i + countED (win S i)) with hlt | hge
      · have := hlo (p - i) (byteAt S p) (by omega) (by rw [win_get (by omega)]; congr 2; omega)
        exact this
      · exact h5 p hge hp'

theorem live_drop_skip {hash : K → Nat} {S : List Nat} {es : List (Option (K × V))} (c : Core hash S es) :
    ∀ (n i j : Nat), j = i + n → j ≤ S.length → (∀ p, i ≤ p → p < j → isED (byteAt S p) = true) →
      live (es.drop i) = live (es.drop j)
  | 0, i, j, h, _, _ => by rw [h]; rfl
  | n + 1, i, j, h, hj, hp => by
    have hil : i < es.length := by rw [c.len]; omega
    rw [List.drop_eq_getElem_cons hil]
    have hno : es[i] = none := by
      cases ho : es[i] with
      | none => rfl
      | some e =>
        have h1 := c.tag i e (by rw [List.getElem?_eq_getElem hil, ho])
        have h2 := hp i (by omega) (by omega)
        rw [byteAt_slot h1] at h2
        have := h2_lt (hash e.1)
        simp [isED] at h2; omega
    rw [hno]
    have := live_drop_skip c n (i + 1) j (by omega) hj fun p h1 h2 => hp p (by omega) h2
    simpa [live] using this

theorem positions_ok {hash : K → Nat} {S t : List Nat} {st : HS K V} (hl : st.ctrl = layout S ++ t) (hcap : st.cap = S.length)
    (c : Core hash S st.entries) : ∀ (f i : Nat), i ≤ S.length → S.length < i + f → isED (byteAt S i) = false →
      ∃ ps, positions st f i = .ok ps ∧ ps.mapM (entryAt st.entries) = .ok (live (st.entries.drop i))
  | 0, i, h1, h2, _ => by omega
  | f + 1, i, h1, h2, hE => by
    unfold positions
    by_cases hi : i = st.cap
    · rw [if_pos hi]
      refine ⟨[], rfl, ?_⟩
      rw [List.drop_eq_nil_of_le (by rw [c.len]; omega)]; rfl
    · rw [if_neg hi]
      have hil : i < S.length := by omega
      obtain ⟨j, hj, h3, h4, h5, h6⟩ := skip_ok t c.sv (st.cap + 1) (i + 1) (by omega) (by omega)
      rw [hl, hj, ok_bind]
      obtain ⟨ps, hps, hm⟩ := positions_ok hl hcap c f j h4 (by omega) h6
      rw [hps, ok_bind]
      refine ⟨i :: ps, rfl, ?_⟩
      obtain ⟨e, he⟩ := c.occ i _ (List.getElem?_eq_getElem hil) (by
        have := byteAt_bound c.sv hil hE
        rwa [byteAt_slot (List.getElem?_eq_getElem hil)] at this)
      have hE' : entryAt st.entries i = .ok e := by unfold entryAt; rw [he]
      have hio : i < st.entries.length := by rw [c.len]; exact hil
      have hoe : st.entries[i] = some e := by rw [List.getElem?_eq_getElem hio] at he; injection he
      rw [List.mapM_cons, hE', ok_bind, hm, ok_bind, List.drop_eq_getElem_cons hio, hoe,
        ← live_drop_skip c (j - (i + 1)) (i + 1) j (by omega) h4 h5]
      rfl

theorem iterate_ok {hash : K → Nat} {N : Nat} {st : HS K V} {S : List Nat} (h : Inv hash N st S) :
    iterate st = .ok (live st.entries) := by
  obtain ⟨t, ht⟩ := h.lay
  have hcap := h.cap
  obtain ⟨j, hj, h3, h4, h5, h6⟩ := skip_ok t h.core.sv (st.cap + 1) 0 (by omega) (by omega)
  obtain ⟨ps, hps, hm⟩ := positions_ok ht hcap h.core (st.cap + 1) j h4 (by omega) h6
  unfold iterate
  rw [ht, hj, ok_bind, hps, ok_bind, hm, ← live_drop_skip h.core j 0 j (by omega) h4 h5]
  rfl

theorem insertAll_ok {hash : K → Nat} : ∀ {es : List (K × V)} {N : Nat} {st : HS K V} {S : List Nat}, Inv hash N st S → N + es.length < 2 ^ 60 →
    (es.map Prod.fst).Nodup → (∀ e ∈ es, ∀ f ∈ live st.entries, f.1 ≠ e.1) →
    ∃ st' S', insertAll hash es st = .ok st' ∧ Inv hash (N + es.length) st' S' ∧ (live st'.entries).Perm (es ++ live st.entries) ∧
      S'.count DELETED ≤ S.count DELETED
  | [], N, st, S, h, _, _, _ => ⟨st, S, rfl, h, List.Perm.refl _, Nat.le_refl _⟩
  | e :: es, N, st, S, h, hN, hnd, habs => by
    simp only [List.map_cons, List.nodup_cons, List.length_cons] at hnd hN
    obtain ⟨st1, S1, i, he, hi, _, hp, hd1⟩ := emplace_absent h (by omega) (habs e (by simp))
    obtain ⟨st2, S2, h1, h2, h3, hd2⟩ := insertAll_ok (es := es) hi (by omega) hnd.2 (by
      intro e' he' f hf
      rcases List.mem_cons.1 (hp.mem_iff.1 hf) with rfl | hf
      · exact fun hk => hnd.1 (List.mem_map.2 ⟨e', he', hk.symm⟩)
      · exact habs e' (by simp [he']) f hf)
    refine ⟨st2, S2, ?_, by rw [List.length_cons, show N + (es.length + 1) = N + 1 + es.length by omega]; exact h2, ?_, Nat.le_trans hd2 hd1⟩
    · rw [insertAll, he, ok_bind]; exact h1
    · refine h3.trans ((hp.append_left es).trans ?_)
      exact List.perm_middle

end Cista.HS

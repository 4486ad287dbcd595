import Verif.HS.Props

/-!
# C41, C42 – checked deserialization of hash tables

Model of `check_state(hash_storage)` (include/cista/serialization.h:926-989) on the members read from a buffer.  `serialize`
(serialization.h:326-380) copies the arrays and members and clears `self_allocated_`.  The bounds checks on the two pointers and
`ctrl_ = entries_ + capacity_` (931-945) are represented by the shapes of the lists: `ctrl` has `capacity_ + 9` bytes (16 for the
static empty group), which is what `check_ptr` establishes.
-/
set_option linter.unusedSimpArgs false
set_option linter.unusedSectionVars false

namespace Cista.HS

variable {K V : Type} [DecidableEq K]

/-- serialization.h:360-367: the members written for a map. -/
def serialized (st : HS K V) : HS K V := { st with self := false }

/-- serialization.h:957-962. -/
def validByte (c : Nat) : Bool := decide (c = EMPTY ∨ c = DELETED ∨ c < 128 ∨ c = END)

/-- serialization.h:977-980: number of empty slots for which `was_never_full` holds, over `n` slots from `i`. -/
def neverFullCount (ctrl : List Nat) (cap : Nat) : Nat → Nat → Res Nat
  | 0, _ => .ok 0
  | n + 1, i => do
    let c ← ctrlAt ctrl i
    if c = EMPTY then do
      let b ← wasNeverFull ctrl cap i
      let r ← neverFullCount ctrl cap n (i + 1)
      .ok (r + if b then 1 else 0)
    else neverFullCount ctrl cap n (i + 1)

/-- serialization.h:946-988: the conditions on the state. -/
def checkState (st : HS K V) : Res Unit := do
  require (decide (st.cap + 9 ≤ st.ctrl.length))
  verify (decide ((st.block = false) ↔ (st.cap = 0 ∧ st.size = 0)))
  verify (decide (st.self = false))
  verify (decide (st.ctrl[st.cap]? = some END))
  verify ((st.ctrl.take (st.cap + 9)).all validByte)
  let g ← neverFullCount st.ctrl st.cap st.cap 0
  verify (decide (st.size = (st.ctrl.take st.cap).countP isFull))
  verify (decide ((st.ctrl.take st.cap).count EMPTY + (st.ctrl.take st.cap).countP isFull + (st.ctrl.take st.cap).count DELETED = st.cap))
  verify (decide (min ((growthOf st.cap + 2 ^ 64 - st.size) % 2 ^ 64) g ≤ st.growth))

/-! ## Valid tables -/

/-- Number of empty slots that `was_never_full` accepts in a table. -/
theorem neverFullCount_ok {S : List Nat} (t : List Nat) (hc : PCap S.length) : ∀ n i, i + n ≤ S.length →
    ∃ g, neverFullCount (layout S ++ t) S.length n i = .ok g ∧ g ≤ n
  | 0, i, _ => ⟨0, rfl, by omega⟩
  | n + 1, i, h => by
    obtain ⟨g, hg, hle⟩ := neverFullCount_ok t hc n (i + 1) (by omega)
    have hil : i < S.length := by omega
    unfold neverFullCount
    rw [ctrlAt_layout (by omega), ok_bind]
    by_cases he : byteAt S i = EMPTY
    · rw [if_pos he]
      have hbl : before S.length i ≤ S.length := by
        rw [before_eq hc (by omega)]; split <;> (try split) <;> omega
      unfold wasNeverFull
      rw [group_layout (by omega), ok_bind, group_layout hbl, ok_bind, ok_bind, hg, ok_bind]
      exact ⟨_, rfl, by split <;> omega⟩
    · rw [if_neg he]
      exact ⟨g, hg, by omega⟩

theorem take_layout (S t : List Nat) : (layout S ++ t).take S.length = S := by
  unfold layout; simp

/-- The checks on a reachable table come down to the last one. -/
theorem checkState_eq {hash : K → Nat} {N : Nat} {st : HS K V} {S : List Nat} (h : Inv hash N st S) (hN : N < 2 ^ 60) :
    ∃ g, neverFullCount st.ctrl st.cap st.cap 0 = .ok g ∧
      checkState (serialized st) = verify (decide (min (growthOf st.cap - st.size) g ≤ st.growth)) := by
  obtain ⟨t, ht⟩ := h.lay
  have hcap := h.cap
  obtain ⟨g, hg, _⟩ := neverFullCount_ok t h.core.pc S.length 0 (by omega)
  have hcounts := h.core.counts
  have hfull := h.core.full_count
  have hsz := h.size
  have hcnt := h.cnt
  have hcb := h.cbnd
  have hgl : growthOf S.length ≤ S.length := by unfold growthOf; split <;> omega
  refine ⟨g, by rw [ht, hcap]; exact hg, ?_⟩
  have e0 : decide (S.length + 9 ≤ (layout S ++ t).length) = true := by
    rw [List.length_append, layout_length]; exact decide_eq_true (by omega)
  have e1 : decide ((st.block = false) ↔ (S.length = 0 ∧ st.size = 0)) = true := by
    apply decide_eq_true
    rw [h.blk, hcap]
    constructor
    · intro hb
      have h0 : S.length = 0 := by simpa using hb
      exact ⟨h0, by omega⟩
    · rintro ⟨h0, _⟩; simp [h0]
  have e2 : decide ((layout S ++ t)[S.length]? = some END) = true := by
    rw [List.getElem?_append_left (by rw [layout_length]; omega), layout_get (by omega), byteAt_end]; rfl
  have e3 : ((layout S ++ t).take (S.length + 9)).all validByte = true := by
    rw [List.take_append_of_le_length (by rw [layout_length]; omega), List.take_of_length_le (by rw [layout_length]; omega), List.all_eq_true]
    intro c hc
    obtain ⟨p, hp⟩ := List.mem_iff_getElem?.1 hc
    have hpl := (List.getElem?_eq_some_iff.1 hp).1
    rw [layout_length] at hpl
    rw [layout_get hpl] at hp
    injection hp with hp
    rw [← hp]
    unfold validByte
    apply decide_eq_true
    rcases byteAt_cases (S := S) p with ⟨i, c', _, h2, h3⟩ | ⟨_, ⟨_, h3⟩ | ⟨_, h3⟩⟩
    · rw [h3]
      rcases h.core.sv c' (List.mem_of_getElem? h2) with h' | h' | h'
      · exact Or.inr (Or.inr (Or.inl h'))
      · exact Or.inl h'
      · exact Or.inr (Or.inl h')
    · rw [h3]; exact Or.inr (Or.inr (Or.inr rfl))
    · rw [h3]; exact Or.inl rfl
  have e4 : decide (st.size = S.countP isFull) = true := decide_eq_true (by omega)
  have e5 : decide (S.count EMPTY + S.countP isFull + S.count DELETED = S.length) = true := decide_eq_true (by omega)
  have e6 : (growthOf S.length + 2 ^ 64 - st.size) % 2 ^ 64 = growthOf S.length - st.size := by
    rw [show growthOf S.length + 2 ^ 64 - st.size = (growthOf S.length - st.size) + 2 ^ 64 by omega, Nat.add_mod_right]
    exact Nat.mod_eq_of_lt (by omega)
  unfold checkState serialized
  simp only [ht, hcap, e0, e1, e2, e3, hg, take_layout, e4, e5, e6, require_true, verify_true, ok_bind, decide_true]

/-- **C41** violated: exactly the tables whose tombstones are not compensated by isolated empty slots are rejected: a reachable map is
accepted by the checks iff it has no tombstone, or the empty slots that `was_never_full` accepts are at most `growth_left`. -/
theorem C41_hash_accepted_iff_violated {hash : K → Nat} {N : Nat} {st : HS K V} {S : List Nat} (h : Inv hash N st S) (hN : N < 2 ^ 60) :
    ∃ g, neverFullCount st.ctrl st.cap st.cap 0 = .ok g ∧
      (checkState (serialized st) = .ok () ↔ S.count DELETED = 0 ∨ g ≤ st.growth) ∧
      (checkState (serialized st) = .error .exn ↔ ¬ (S.count DELETED = 0 ∨ g ≤ st.growth)) := by
  obtain ⟨g, hg, he⟩ := checkState_eq h hN
  refine ⟨g, hg, ?_⟩
  have hcnt := h.cnt
  rw [he, h.cap]
  have key : min (growthOf S.length - st.size) g ≤ st.growth ↔ S.count DELETED = 0 ∨ g ≤ st.growth := by
    rw [Nat.min_def]; split <;> omega
  by_cases hc : min (growthOf S.length - st.size) g ≤ st.growth
  · rw [decide_eq_true hc, verify_true]
    exact ⟨⟨fun _ => key.1 hc, fun _ => rfl⟩, ⟨fun h => (by cases h), fun h => absurd (key.1 hc) h⟩⟩
  · rw [decide_eq_false hc, verify_false]
    exact ⟨⟨fun h => (by cases h), fun h => absurd (key.2 h) hc⟩, ⟨fun _ h => hc (key.2 h), fun _ => rfl⟩⟩

/-- Fifteen colliding insertions and one erasure: a map the checks reject. -/
def tombOps : List (Op Nat Nat) := (List.range 15).map (fun i => Op.emplace i i) ++ [.erase 6]

/-- **C41** violated: a map built by insertions and one erasure is rejected after serialization. -/
theorem C41_hash_tombstone_violated :
    ((run (fun _ => 0) 0 (HS.init : HS Nat Nat) tombOps).bind fun r => checkState (serialized r.1)) = .error .exn := by
  decide +kernel

/-- The same map without the erasure is accepted. -/
example : ((run (fun _ => 0) 0 (HS.init : HS Nat Nat) (tombOps.take 15)).bind fun r => checkState (serialized r.1)) = .ok () := by
  decide +kernel

/-- Ordinary keys: 28 well spread insertions and one erasure are rejected too. -/
example : ((run (fun k => k * 2654435761 % 4294967296) 0 (HS.init : HS Nat Nat)
      ((List.range 28).map (fun i => Op.emplace i i) ++ [.erase 3, .erase 9, .erase 11, .erase 14, .erase 20])).bind fun r =>
    checkState (serialized r.1)) = .error .exn := by decide +kernel

/-- **C41** violated: `rehash()` on an empty map makes the serialized form unacceptable. -/
theorem C41_hash_rehash_violated (hash : K → Nat) :
    ∃ st, rehash hash (HS.init : HS K V) = .ok st ∧ checkState (serialized st) = .error .exn := by
  refine ⟨⟨freshCtrl 0, [], 0, 0, 0, true, true⟩, by simp [rehash, resize, moveLoop, HS.init, growthOf, ok_bind], ?_⟩
  have e0 : decide (0 + 9 ≤ (freshCtrl 0).length) = true := by decide
  have e1 : decide ((true = false) ↔ ((0:Nat) = 0 ∧ (0:Nat) = 0)) = false := by decide
  unfold checkState serialized
  dsimp only
  rw [e0, e1, verify_false, require_true]; rfl

/-- **C41** for histories without erasure: the map is accepted. -/
theorem C41_hash_partial (hash : K → Nat) (d : V) (ops : List (Op K V)) (hlen : ops.length < 2 ^ 60) (ha : Allowed d [] ops)
    (hno : ops.all Op.noErase = true) :
    ∃ st outs, run hash d HS.init ops = .ok (st, outs) ∧ checkState (serialized st) = .ok () := by
  obtain ⟨st, S, h1, h2, _, hd⟩ := run_ok' ops (Inv.init hash (V := V) false) (List.Perm.refl _) (by omega) ha
  obtain ⟨g, _, h3, _⟩ := C41_hash_accepted_iff_violated h2 (by omega)
  exact ⟨st, _, h1, h3.2 (Or.inl (by have := hd hno; simpa using this))⟩

/-! ## Adversarial tables -/

/-- A table of seven deleted slots, as bytes can describe it. -/
def stuck : HS Nat Nat := ⟨List.replicate 7 DELETED ++ END :: List.replicate 8 DELETED, List.replicate 7 none, 0, 7, 0, true, false⟩

/-- **C42** violated: `find` on an accepted table need not terminate. -/
theorem C42_find_diverges_violated : checkState stuck = .ok () ∧ ∀ (hash : Nat → Nat) (k fuel : Nat), findN hash fuel stuck k = .error .diverge := by
  refine ⟨by decide +kernel, fun hash k fuel => ?_⟩
  have hw : ∀ off, off < 8 → ∃ w, group stuck.ctrl off = .ok w ∧ Grp w ∧ anyEmpty w = false ∧ ∀ c ∈ w, isFull c = false := by
    intro off hoff
    refine ⟨(stuck.ctrl.drop off).take 8, ?_, ⟨?_, ?_⟩, ?_, ?_⟩
    · unfold group; rw [if_pos (by simp [stuck]; omega)]
    · simp [stuck]; omega
    · intro c hc
      have hc := List.mem_of_mem_drop (List.mem_of_mem_take hc)
      have : ∀ c ∈ stuck.ctrl, c = DELETED ∨ c = END := by decide
      rcases this c hc with h | h
      · exact Or.inr (Or.inr (Or.inl h))
      · exact Or.inr (Or.inr (Or.inr h))
    · have : ∀ off : Fin 8, anyEmpty ((stuck.ctrl.drop off.val).take 8) = false := by decide +kernel
      exact this ⟨off, hoff⟩
    · intro c hc
      have hc := List.mem_of_mem_drop (List.mem_of_mem_take hc)
      have : ∀ c ∈ stuck.ctrl, isFull c = false := by decide
      exact this c hc
  have hand : ∀ x, x &&& 7 < 8 := fun x => by
    have : (7:Nat) = 2 ^ 3 - 1 := rfl
    rw [this, Nat.and_two_pow_sub_one_eq_mod]; omega
  have key : ∀ f off idx, off < 8 → findLoop stuck k (h2 (hash k)) f off idx = .error .diverge := by
    intro f
    induction f with
    | zero => intro off idx _; rfl
    | succ f ih =>
      intro off idx hoff
      obtain ⟨w, h1, hg, h2', h3⟩ := hw off hoff
      have hm : matchIdx w (h2 (hash k)) = [] := by
        apply List.eq_nil_iff_forall_not_mem.2
        intro i hi
        obtain ⟨_, c, hc, hf⟩ := matchIdx_full hg (h2_lt _) hi
        rw [h3 c (List.mem_of_getElem? hc)] at hf; cases hf
      unfold findLoop
      rw [h1, ok_bind, hm]
      simp only [scan, ok_bind, h2', Bool.false_eq_true, if_false]
      exact ih _ _ (hand _)
  exact key fuel _ _ (hand _)

/-- A table whose mirror bytes claim a full slot that is empty. -/
def forged : HS Nat Nat := ⟨[EMPTY, END, 5, EMPTY, EMPTY, EMPTY, EMPTY, EMPTY, EMPTY, EMPTY], [none], 0, 1, 1, true, false⟩

/-- **C42** violated: `find` on an accepted table uses an entry that does not exist (in memory: bytes never checked). -/
theorem C42_find_ub_violated : checkState forged = .ok () ∧ find (fun _ => 5) forged 0 = .error .ub := by decide +kernel

/-! ## Iterating an accepted table is safe whatever the bytes -/

theorem group_get {ctrl w : List Nat} {i : Nat} (h : group ctrl i = .ok w) {j : Nat} (hj : j < 8) : w[j]? = ctrl[i + j]? := by
  unfold group at h
  split at h
  · injection h with h
    rw [← h, List.getElem?_take_of_lt hj, List.getElem?_drop]
  · cases h

theorem skip_any {ctrl : List Nat} {cap : Nat} (hl : cap + 9 ≤ ctrl.length) (hend : ctrl[cap]? = some END)
    (hv : ∀ c ∈ ctrl.take (cap + 9), Valid c) : ∀ f i, i ≤ cap → cap < i + f →
      ∃ j, skip ctrl f i = .ok j ∧ i ≤ j ∧ j ≤ cap ∧ (∀ p, i ≤ p → p < j → ∃ c, ctrl[p]? = some c ∧ isED c = true) ∧
        ∃ c, ctrl[j]? = some c ∧ isED c = false
  | 0, i, h1, h2 => by omega
  | f + 1, i, h1, h2 => by
    have hil : i < ctrl.length := by omega
    have hi : ctrl[i]? = some ctrl[i] := List.getElem?_eq_getElem hil
    have hctrl : ctrlAt ctrl i = .ok ctrl[i] := by unfold ctrlAt; rw [hi]
    unfold skip
    rw [hctrl, ok_bind]
    cases hE : isED ctrl[i] with
    | false => exact ⟨i, by simp, by omega, h1, by intro p hp hp'; omega, _, hi, hE⟩
    | true =>
      simp only [if_true]
      have hlt : i < cap := by
        rcases Nat.lt_or_ge i cap with h | h
        · exact h
        · have : i = cap := by omega
          subst this
          rw [hi] at hend; injection hend with hend
          rw [hend] at hE; cases hE
      obtain ⟨w, hw⟩ : ∃ w, group ctrl i = .ok w := ⟨_, by unfold group; rw [if_pos (by omega)]⟩
      have hg : Grp w := by
        unfold group at hw
        rw [if_pos (by omega)] at hw
        injection hw with hw
        refine ⟨by rw [← hw]; simp; omega, fun c hc => ?_⟩
        rw [← hw] at hc
        obtain ⟨j, hj⟩ := List.mem_iff_getElem?.1 hc
        have hj8 : j < 8 := by have := (List.getElem?_eq_some_iff.1 hj).1; simp at this; omega
        rw [List.getElem?_take_of_lt hj8, List.getElem?_drop] at hj
        exact hv c (List.mem_of_getElem? (i := i + j) (by rw [List.getElem?_take_of_lt (by omega)]; exact hj))
      rw [hw, ok_bind]
      obtain ⟨hc8, hlo, hhi⟩ := countED_spec hg
      have hpos : countED w ≠ 0 := by
        intro h0
        have := hhi ctrl[i] (by rw [h0, group_get hw (by omega)]; exact hi)
        rw [hE] at this; cases this
      have hle : i + countED w ≤ cap := by
        rcases Nat.lt_or_ge (cap - i) (countED w) with h | h
        · have := hlo (cap - i) END h (by rw [group_get hw (by omega), show i + (cap - i) = cap by omega]; exact hend)
          cases this
        · omega
      obtain ⟨j, hj, h3, h4, h5, h6⟩ := skip_any hl hend hv f (i + countED w) hle (by omega)
      refine ⟨j, hj, by omega, h4, fun p hp hp' => ?_, h6⟩
      rcases Nat.lt_or_ge p (i + countED w) with hlt' | hge
      · have hpl : p < ctrl.length := by omega
        refine ⟨ctrl[p], List.getElem?_eq_getElem hpl, ?_⟩
        refine hlo (p - i) _ (by omega) ?_
        rw [group_get hw (by omega), show i + (p - i) = p by omega]
        exact List.getElem?_eq_getElem hpl
      · exact h5 p hge hp'

/-- **C42**: iterating (which is also how the checks recurse into the entries, serialization.h:991-999) any accepted table, whatever
its bytes, terminates and visits exactly the full slots, all inside the entry array. -/
theorem C42_iteration (st : HS K V) (h : checkState st = .ok ()) :
    ∃ b ps, skip st.ctrl (st.cap + 1) 0 = .ok b ∧ positions st (st.cap + 1) b = .ok ps ∧
      ∀ p, p ∈ ps ↔ p < st.cap ∧ ∃ c, st.ctrl[p]? = some c ∧ isFull c = true := by
  unfold checkState at h
  -- extract the conditions
  have hl : st.cap + 9 ≤ st.ctrl.length := by
    by_cases hc : st.cap + 9 ≤ st.ctrl.length
    · exact hc
    · rw [decide_eq_false hc, require_false, error_bind] at h; cases h
  rw [decide_eq_true hl, require_true, ok_bind] at h
  have step : ∀ {α : Type} (b : Bool) (f : Unit → Res α) (r : α), (verify b >>= f) = .ok r → b = true ∧ f () = .ok r := by
    intro α b f r hb
    cases b with
    | true => exact ⟨rfl, hb⟩
    | false => cases hb
  obtain ⟨_, h⟩ := step _ _ _ h
  obtain ⟨_, h⟩ := step _ _ _ h
  obtain ⟨hend, h⟩ := step _ _ _ h
  obtain ⟨hall, h⟩ := step _ _ _ h
  have hend : st.ctrl[st.cap]? = some END := of_decide_eq_true hend
  have hv : ∀ c ∈ st.ctrl.take (st.cap + 9), Valid c := by
    intro c hc
    have := List.all_eq_true.1 hall c hc
    unfold validByte at this
    have := of_decide_eq_true this
    unfold Valid
    rcases this with h | h | h | h
    · exact Or.inr (Or.inl h)
    · exact Or.inr (Or.inr (Or.inl h))
    · exact Or.inl h
    · exact Or.inr (Or.inr (Or.inr h))
  cases hg : neverFullCount st.ctrl st.cap st.cap 0 with
  | error e => rw [hg, error_bind] at h; cases h
  | ok g =>
  rw [hg, ok_bind] at h
  obtain ⟨_, h⟩ := step _ _ _ h
  obtain ⟨hsum, _⟩ := step _ _ _ h
  have hsum := of_decide_eq_true hsum
  -- no slot is the end marker
  have hnoend : ∀ p c, p < st.cap → st.ctrl[p]? = some c → isED c = false → isFull c = true := by
    have hlen : (st.ctrl.take st.cap).length = st.cap := by simp; omega
    have hval : ∀ c ∈ st.ctrl.take st.cap, Valid c := fun c hc => hv c (by
      obtain ⟨i, hi⟩ := List.mem_iff_getElem?.1 hc
      have hil : i < st.cap := by have := (List.getElem?_eq_some_iff.1 hi).1; omega
      rw [List.getElem?_take_of_lt hil] at hi
      exact List.mem_of_getElem? (i := i) (by rw [List.getElem?_take_of_lt (by omega)]; exact hi))
    have key : ∀ L : List Nat, (∀ c ∈ L, Valid c) → L.count EMPTY + L.countP isFull + L.count DELETED + L.count END = L.length := by
      intro L hL
      induction L with
      | nil => rfl
      | cons c L ih =>
        have ih := ih fun x hx => hL x (by simp [hx])
        simp only [List.countP_cons, List.count_cons, List.length_cons]
        rcases hL c (by simp) with hc | hc | hc | hc
        · have h1 : isFull c = true := by simp [isFull, hc]
          have h2 : (c == EMPTY) = false := by simp [EMPTY]; omega
          have h3 : (c == DELETED) = false := by simp [DELETED]; omega
          have h4 : (c == END) = false := by simp [END]; omega
          simp only [h1, h2, h3, h4, if_true, Bool.false_eq_true, if_false]; omega
        · subst hc; simp [isFull, EMPTY, DELETED, END] at ih ⊢; omega
        · subst hc; simp [isFull, EMPTY, DELETED, END] at ih ⊢; omega
        · subst hc; simp [isFull, EMPTY, DELETED, END] at ih ⊢; omega
    have h0 := key _ hval
    intro p c hp hc hE
    have hm : c ∈ st.ctrl.take st.cap := List.mem_of_getElem? (i := p) (by rw [List.getElem?_take_of_lt hp]; exact hc)
    rcases hval c hm with h' | h' | h' | h'
    · simp [isFull, h']
    · rw [h'] at hE; cases hE
    · rw [h'] at hE; cases hE
    · subst h'
      have : 0 < (st.ctrl.take st.cap).count END := List.count_pos_iff.2 hm
      omega
  obtain ⟨b, hb, hb1, hb2, hb3, cb, hb4, hb5⟩ := skip_any hl hend hv (st.cap + 1) 0 (by omega) (by omega)
  have hpos : ∀ f i c, i ≤ st.cap → st.cap < i + f → st.ctrl[i]? = some c → isED c = false →
      ∃ ps, positions st f i = .ok ps ∧ ∀ p, p ∈ ps ↔ i ≤ p ∧ p < st.cap ∧ ∃ c, st.ctrl[p]? = some c ∧ isFull c = true := by
    intro f
    induction f with
    | zero => intro i c h1 h2; omega
    | succ f ih =>
      intro i c h1 h2 hc hE
      unfold positions
      by_cases hi : i = st.cap
      · rw [if_pos hi]
        exact ⟨[], rfl, fun p => by simp; omega⟩
      · rw [if_neg hi]
        obtain ⟨j, hj, h3, h4, h5, c', h6, h7⟩ := skip_any hl hend hv (st.cap + 1) (i + 1) (by omega) (by omega)
        obtain ⟨ps, hps, hmem⟩ := ih j c' h4 (by omega) h6 h7
        rw [hj, ok_bind, hps, ok_bind]
        refine ⟨i :: ps, rfl, fun p => ?_⟩
        rw [List.mem_cons, hmem p]
        constructor
        · rintro (rfl | ⟨h8, h9, h10⟩)
          · exact ⟨by omega, by omega, c, hc, hnoend p c (by omega) hc hE⟩
          · exact ⟨by omega, h9, h10⟩
        · rintro ⟨h8, h9, c0, h10, h11⟩
          by_cases hpi : p = i
          · exact Or.inl hpi
          · right
            refine ⟨?_, h9, c0, h10, h11⟩
            rcases Nat.lt_or_ge p j with hlt | hge
            · obtain ⟨c1, h12, h13⟩ := h5 p (by omega) hlt
              rw [h10] at h12; injection h12 with h12
              subst h12
              simp [isED] at h13; simp [isFull] at h11; omega
            · exact hge
  obtain ⟨ps, hps, hmem⟩ := hpos (st.cap + 1) b cb hb2 (by omega) hb4 hb5
  refine ⟨b, ps, hb, hps, fun p => ?_⟩
  rw [hmem p]
  constructor
  · rintro ⟨_, h1, h2⟩; exact ⟨h1, h2⟩
  · rintro ⟨h1, c, h2, h3⟩
    refine ⟨?_, h1, c, h2, h3⟩
    rcases Nat.lt_or_ge p b with hlt | hge
    · obtain ⟨c1, h12, h13⟩ := hb3 p (by omega) hlt
      rw [h2] at h12; injection h12 with h12
      subst h12
      simp [isED] at h13; simp [isFull] at h3; omega
    · exact hge

example : checkState stuck = .ok () ∧ (positions stuck 8 7 = .ok []) := by decide +kernel

/-- **C42** for the tables produced by `serialize`: queries on the deserialized map give the answers of the original. -/
theorem C42_serialized_partial {hash : K → Nat} {N : Nat} {st : HS K V} {m : List (K × V)} (h : Rep hash N st m) (k : K) :
    get hash (serialized st) k = .ok (lookup m k) ∧ iterate (serialized st) = iterate st := by
  obtain ⟨S, hi, hp⟩ := h
  have hi' : Inv hash N (serialized st) S := ⟨hi.lay, hi.cap, hi.core, hi.size, hi.cnt, hi.blk, hi.bnd, hi.cbnd⟩
  exact ⟨Rep.get ⟨S, hi', hp⟩ k, by rw [iterate_ok hi, iterate_ok hi']; rfl⟩

end Cista.HS

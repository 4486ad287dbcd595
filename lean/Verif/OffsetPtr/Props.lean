import Verif.OffsetPtr.Model

/-!
# C07, C08 — relative pointers behave like raw pointers and survive relocation
-/
namespace Cista.OffsetPtr

/-! ## Specification: the same operations on raw pointers -/

/-- Raw pointer variables by object address. -/
abbrev Raw := Addr → Addr

/-- Raw pointer semantics of one operation. -/
def specStep (r : Raw) : Op → Res Raw
  | .setNull d => .ok (upd r d 0)
  | .setRaw d p => .ok (upd r d p)
  | .copy d s => .ok (upd r d (r s))
  | .step d stride k => (rawAdd (r d) stride k).map fun q => upd r d q
  | .swap a b t => .ok (upd (upd (upd r t (r a)) a (upd r t (r a) b)) b (r a))

/-- Raw pointer semantics of a history. -/
def specRun : Raw → List Op → Res Raw
  | r, [] => .ok r
  | r, op :: ops => do specRun (← specStep r op) ops

/-- Addresses of the lower half of the address space (all user space addresses of mainstream 64-bit
platforms). -/
def Low (a : Addr) : Prop := a.toNat < 2 ^ 63

instance (a : Addr) : Decidable (Low a) := inferInstanceAs (Decidable (_ < _))

theorem low_zero : Low 0 := by decide

/-- The objects used by an operation live at, and the raw targets are, lower-half addresses; a swap
uses a temporary distinct from its operands. -/
def Op.Valid : Op → Prop
  | .setNull d => Low d
  | .setRaw d p => Low d ∧ Low p
  | .copy d s => Low d ∧ Low s
  | .step d _ _ => Low d
  | .swap a b t => Low a ∧ Low b ∧ Low t ∧ t ≠ a ∧ t ≠ b

/-! ## Lemmas -/

theorem toInt_low {a : Addr} (h : Low a) : a.toInt = a.toNat := by
  unfold Low at h
  rw [BitVec.toInt_eq_toNat_cond]; simp; omega

theorem ptrToOffset_low {this p : Addr} (ht : Low this) (hp : Low p) (h0 : p ≠ 0) :
    ptrToOffset this p = .ok (p - this) := by
  unfold ptrToOffset
  rw [if_neg h0, if_neg]
  simp only [BitVec.ssubOverflow, toInt_low ht, toInt_low hp]
  unfold Low at *
  simp; omega

theorem sub_ne_null {this p : Addr} (ht : Low this) (hp : Low p) : p - this ≠ NULLPTR_OFFSET := by
  intro h
  have := congrArg BitVec.toNat h
  unfold Low at *
  simp [NULLPTR_OFFSET, BitVec.toNat_sub, BitVec.toNat_intMin] at this
  omega

/-- Round trip: what was stored is read back. -/
theorem get_ptrToOffset {this p : Addr} (ht : Low this) (hp : Low p) :
    (ptrToOffset this p >>= get this) = .ok p := by
  by_cases h0 : p = 0
  · subst h0; simp [ptrToOffset, get, bind, Except.bind]
  · rw [ptrToOffset_low ht hp h0]
    simp only [bind, Except.bind, get]
    rw [if_neg (sub_ne_null ht hp), if_neg]
    · congr 1; bv_omega
    · have e : (p - this).toInt = (p.toNat : Int) - this.toNat := by
        rw [BitVec.toInt_sub, toInt_low ht, toInt_low hp]
        unfold Low at *
        exact Int.bmod_eq_of_le (by simp; omega) (by simp; omega)
      simp only [BitVec.saddOverflow, e, toInt_low ht]
      unfold Low at *
      simp; omega

/-- The refinement relation: each object at a low address denotes the raw pointer. -/
def Denotes (m : Cells) (r : Raw) : Prop :=
  ∀ a, Low a → Low (r a) ∧ get a (m a) = .ok (r a)

theorem ptrToOffset_ok {this p : Addr} (ht : Low this) (hp : Low p) :
    ∃ o, ptrToOffset this p = .ok o ∧ get this o = .ok p := by
  have h := get_ptrToOffset ht hp
  cases ho : ptrToOffset this p with
  | error e => rw [ho] at h; simp [bind, Except.bind] at h
  | ok o => rw [ho] at h; exact ⟨o, rfl, h⟩

theorem denotes_upd {m : Cells} {r : Raw} (h : Denotes m r) {d p : Addr} {o : BitVec 64}
    (hp : Low p) (ho : get d o = .ok p) : Denotes (upd m d o) (upd r d p) := by
  intro a ha
  unfold upd
  by_cases e : a = d
  · subst e; simp [hp, ho]
  · simp [e]; exact h a ha

theorem assignFrom_denotes {m : Cells} {r : Raw} (h : Denotes m r) {d s : Addr} (hd : Low d)
    (hs : Low s) : ∃ m', assignFrom m d s = .ok m' ∧ Denotes m' (upd r d (r s)) := by
  obtain ⟨h1, h2⟩ := h s hs
  obtain ⟨o, ho, hg⟩ := ptrToOffset_ok hd h1
  refine ⟨upd m d o, ?_, denotes_upd h h1 hg⟩
  simp [assignFrom, h2, ho, bind, Except.bind, pure, Except.pure]

theorem rawAdd_low {p : Addr} {s : Nat} {k : Int} {q : Addr} (h : rawAdd p s k = .ok q) : Low q := by
  unfold rawAdd at h
  simp only at h
  split at h
  · cases h
  · next hc =>
    simp only [not_or] at hc
    cases h
    unfold Low
    simp only [BitVec.toNat_ofNat]
    generalize hx : (p.toNat : Int) + k * (s : Int) = x at *
    omega

theorem step_refines (op : Op) (hv : op.Valid) {m : Cells} {r : Raw} (h : Denotes m r) :
    match specStep r op with
    | .ok r' => ∃ m', step m op = .ok m' ∧ Denotes m' r'
    | .error e => step m op = .error e := by
  cases op with
  | setNull d =>
    exact ⟨_, rfl, denotes_upd h low_zero (by simp [get])⟩
  | setRaw d p =>
    obtain ⟨hd, hp⟩ := hv
    obtain ⟨o, ho, hg⟩ := ptrToOffset_ok hd hp
    exact ⟨upd m d o, by simp [step, ho, bind, Except.bind, pure, Except.pure], denotes_upd h hp hg⟩
  | copy d s =>
    obtain ⟨hd, hs⟩ := hv
    exact assignFrom_denotes h hd hs
  | step d stride k =>
    obtain ⟨h1, h2⟩ := h d hv
    simp only [specStep]
    cases hq : rawAdd (r d) stride k with
    | error e => simp [step, h2, hq, Except.map, bind, Except.bind]
    | ok q =>
      have hl := rawAdd_low hq
      obtain ⟨o, ho, hg⟩ := ptrToOffset_ok (this := d) hv hl
      refine ⟨upd m d o, ?_, denotes_upd h hl hg⟩
      simp [step, h2, hq, ho, bind, Except.bind, pure, Except.pure]
  | swap a b t =>
    obtain ⟨ha, hb, ht, hta, htb⟩ := hv
    obtain ⟨m1, e1, d1⟩ := assignFrom_denotes h ht ha
    obtain ⟨m2, e2, d2⟩ := assignFrom_denotes d1 ha hb
    obtain ⟨m3, e3, d3⟩ := assignFrom_denotes d2 hb ht
    refine ⟨m3, by simp [step, e1, e2, e3, bind, Except.bind], ?_⟩
    have : upd (upd r t (r a)) a (upd r t (r a) b) t = r a := by
      unfold upd; simp [hta]
    rw [this] at d3
    exact d3

/-! ## C07 -/

/-- **C07** For every history of null/raw assignment, copy, move, prefix increment/decrement and
swap, relative pointers at arbitrary (lower half) addresses denote exactly the pointer a raw pointer
variable would hold, no step is undefined that would be defined for raw pointers. -/
theorem C07_offset_ptr_refines_raw (ops : List Op) (hv : ∀ op ∈ ops, op.Valid) (m : Cells) (r : Raw)
    (h : Denotes m r) :
    match specRun r ops with
    | .ok r' => ∃ m', run m ops = .ok m' ∧ ∀ a, Low a → get a (m' a) = .ok (r' a)
    | .error e => run m ops = .error e := by
  induction ops generalizing m r with
  | nil => exact ⟨m, rfl, fun a ha => (h a ha).2⟩
  | cons op ops ih =>
    have hs := step_refines op (hv op (by simp)) h
    simp only [specRun]
    cases hr : specStep r op with
    | error e =>
      rw [hr] at hs
      simp only at hs
      simp [run, hs, bind, Except.bind]
    | ok r' =>
      rw [hr] at hs
      obtain ⟨m', e, d⟩ := hs
      have := ih (fun op h => hv op (by simp [h])) m' r' d
      simpa [run, e, bind, Except.bind] using this

/-- **C07** All objects start out null (default constructed); the initial state of the refinement. -/
theorem C07_initial_null : Denotes (fun _ => NULLPTR_OFFSET) (fun _ => 0) := by
  intro a _; exact ⟨low_zero, by simp [get]⟩

/-- **C07** `operator bool` is true exactly for non-null pointers. -/
theorem C07_bool_iff_nonnull (a : Addr) (off : BitVec 64) (p : Addr) (ha : Low a) (hp : Low p)
    (hoff : ptrToOffset a p = .ok off) : toBool off = true ↔ p ≠ 0 := by
  by_cases h0 : p = 0
  · subst h0; simp [ptrToOffset] at hoff; subst hoff; simp [toBool]
  · rw [ptrToOffset_low ha hp h0] at hoff
    cases hoff
    simp only [toBool, sub_ne_null ha hp, ne_eq, not_false_eq_true, decide_true, true_iff]
    exact h0

/-- **C07** Two relative pointers, wherever they live, compare equal iff their targets are equal
(comparison goes through the conversion to a raw pointer). -/
theorem C07_equal_iff_same_target (a b p q : Addr) (ha : Low a) (hb : Low b) (hp : Low p)
    (hq : Low q) : ((ptrToOffset a p >>= get a) = (ptrToOffset b q >>= get b)) ↔ p = q := by
  rw [get_ptrToOffset ha hp, get_ptrToOffset hb hq]; simp

/-- **C07 violated** Postfix increment and decrement return the pointer to the next or previous element and do not change the variable,
while those of a raw pointer return the old value and change the variable; for all pointers that can be advanced. -/
theorem C07_post_increment_violated (m : Cells) (d p q : Addr) (stride : Nat) (k : Int) (hs : 0 < stride) (hk : k = 1 ∨ k = -1)
    (hp : get d (m d) = .ok p) (hq : rawAdd p stride k = .ok q) :
    postStep m d stride k = .ok (q, m) ∧ get d (m d) = .ok p ∧ q ≠ p := by
  refine ⟨?_, hp, ?_⟩
  · rw [postStep, hp, ok_bind, hq]; rfl
  · intro he
    subst he
    have hl := q.isLt
    unfold rawAdd at hq
    dsimp only at hq
    split at hq
    · cases hq
    · rename_i hc
      have := congrArg BitVec.toNat (Except.ok.inj hq)
      rw [BitVec.toNat_ofNat] at this
      rw [not_or, not_or] at hc
      simp only [Nat.reducePow] at *
      rcases hk with rfl | rfl <;> omega

example : get 8#64 92#64 = .ok 100#64 ∧ rawAdd 100#64 4 1 = .ok 104#64 ∧ rawAdd 100#64 4 (-1) = .ok 96#64 := by decide

/-- **C07 violated** Two `offset_ptr<void>` that are not null compare equal, wherever they point to. -/
theorem C07_void_equal_violated (a b p q : Addr) (ha : Low a) (hb : Low b) (hp : Low p) (hq : Low q) (hp0 : p ≠ 0) (hq0 : q ≠ 0) :
    ∃ o1 o2, ptrToOffset a p = .ok o1 ∧ ptrToOffset b q = .ok o2 ∧ get a o1 = .ok p ∧ get b o2 = .ok q ∧ eqVoid o1 o2 = true := by
  have h1 := ptrToOffset_low ha hp hp0
  have h2 := ptrToOffset_low hb hq hq0
  have g1 := get_ptrToOffset ha hp
  have g2 := get_ptrToOffset hb hq
  rw [h1, ok_bind] at g1
  rw [h2, ok_bind] at g2
  refine ⟨_, _, h1, h2, g1, g2, ?_⟩
  rw [eqVoid, (C07_bool_iff_nonnull a _ p ha hp h1).2 hp0, (C07_bool_iff_nonnull b _ q hb hq h2).2 hq0]
  rfl

example : Low 8#64 ∧ Low 16#64 ∧ Low 4096#64 ∧ Low 8192#64 := by simp [Low]

example : Op.Valid (.swap 8#64 16#64 24#64) ∧ Op.Valid (.setRaw 8#64 4096#64) := by
  simp [Op.Valid, Low]

/-- The precondition matters: at the distance `2^63` the encoding of a non-null target would be read
back as null — here the subtraction is already undefined behaviour or yields `NULLPTR_OFFSET`. -/
example : ptrToOffset 0#64 (BitVec.ofNat 64 (2 ^ 63)) = .ok NULLPTR_OFFSET := by decide

/-! ## C08 -/

theorem memcpy_load (host : Endian) (m : Bytes) (src dst len i : Nat) (hi : i + 8 ≤ len) :
    loadOff host (memcpy m dst src len) (dst + i) = loadOff host m (src + i) := by
  unfold loadOff memcpy
  congr 2
  apply List.map_congr_left
  intro k hk
  simp at hk
  rw [if_pos (by omega)]
  congr 1; omega

/-- **C08** Relocation: a block of `len` bytes at `src` contains, at position `i`, a relative pointer
whose target is position `j` of the block.  After copying the block bytewise to `dst`, the copied
pointer designates position `j` of the copy. -/
theorem C08_relocation (host : Endian) (m : Bytes) (src dst len i j : Nat)
    (hi : i + 8 ≤ len) (hj : j ≤ len) (hsrc : src + len < 2 ^ 63) (hdst : dst + len < 2 ^ 63)
    (hpos : 0 < src + j)
    (h : getAt host m (src + i) = .ok (BitVec.ofNat 64 (src + j))) :
    getAt host (memcpy m dst src len) (dst + i) = .ok (BitVec.ofNat 64 (dst + j)) := by
  unfold getAt at *
  rw [memcpy_load host m src dst len i hi]
  generalize loadOff host m (src + i) = off at *
  unfold get at *
  split at h
  · exfalso
    simp at h
    have := congrArg BitVec.toNat h
    simp at this; omega
  · next hn =>
    split at h
    · cases h
    · simp only [Except.ok.injEq] at h
      have hoff : off = BitVec.ofNat 64 (src + j) - BitVec.ofNat 64 (src + i) := by
        rw [← h]; bv_omega
      have lowof : ∀ x, x < 2 ^ 63 → Low (BitVec.ofNat 64 x) := by
        intro x hx; unfold Low; simp; omega
      have e : off.toInt = (j : Int) - i := by
        rw [hoff, BitVec.toInt_sub, toInt_low (lowof _ (by omega)), toInt_low (lowof _ (by omega))]
        simp only [BitVec.toNat_ofNat]
        rw [Nat.mod_eq_of_lt (by omega), Nat.mod_eq_of_lt (by omega)]
        rw [show ((src + j : Nat) : Int) - ((src + i : Nat) : Int) = (j : Int) - i by omega]
        exact Int.bmod_eq_of_le (by simp; omega) (by simp; omega)
      rw [if_neg hn, if_neg]
      · congr 1
        rw [hoff]
        apply BitVec.eq_of_toNat_eq
        simp [BitVec.toNat_add, BitVec.toNat_sub]
        omega
      · simp only [BitVec.saddOverflow, e, toInt_low (lowof _ (show dst + i < 2 ^ 63 by omega))]
        simp only [BitVec.toNat_ofNat]
        rw [Nat.mod_eq_of_lt (by omega)]
        simp; omega

/-- **C08** Null stays null under relocation. -/
theorem C08_relocation_null (host : Endian) (m : Bytes) (src dst len i : Nat) (hi : i + 8 ≤ len)
    (h : loadOff host m (src + i) = NULLPTR_OFFSET) :
    getAt host (memcpy m dst src len) (dst + i) = .ok 0 := by
  unfold getAt
  rw [memcpy_load host m src dst len i hi, h]
  simp [get]

/-- **C08** The hypothesis of `C08_relocation` is what writing the pointer establishes: storing the
offset computed by `ptr_to_offset` as 8 host-order bytes and reading it back yields the target. -/
theorem C08_store_then_get (host : Endian) (m : Bytes) (a : Nat) (p : Addr)
    (ha : a < 2 ^ 63) (hp : Low p) :
    ∃ o, ptrToOffset (BitVec.ofNat 64 a) p = .ok o ∧
      getAt host (storeOff host m a o) a = .ok p := by
  have hla : Low (BitVec.ofNat 64 a) := by unfold Low; simp; omega
  obtain ⟨o, ho, hg⟩ := ptrToOffset_ok hla hp
  refine ⟨o, ho, ?_⟩
  unfold getAt
  have : loadOff host (storeOff host m a o) a = o := by
    unfold loadOff storeOff
    have hl : ((List.range 8).map fun i =>
        if a ≤ a + i ∧ a + i < a + 8 then (hostBytes host 8 o.toNat).getD (a + i - a) 0#8
        else m (a + i)) = hostBytes host 8 o.toNat := by
      apply List.ext_getElem
      · simp
      · intro i h1 h2
        simp at h1
        simp [h1, List.getD_eq_getElem?_getD]
    rw [hl, ofHost_hostBytes]
    · simp
    · have := o.isLt; simpa using this
  rw [this]; exact hg

/-- Non-vacuity: a 16 byte block at address 1000 with a pointer at 0 to position 8. -/
example : ∃ m : Bytes, getAt .little m (1000 + 0) = .ok (BitVec.ofNat 64 (1000 + 8)) := by
  obtain ⟨o, _, h⟩ := C08_store_then_get .little (fun _ => 0) 1000 1008#64 (by omega) (by decide)
  exact ⟨_, h⟩

end Cista.OffsetPtr

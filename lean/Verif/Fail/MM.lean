import Verif.MM.Props
import Verif.Fail.Prog

set_option linter.unusedSimpArgs false

/-!
# C102 — `mutable_fws_multimap` when memory runs out

The operations of `mutable_fws_multimap.h` that allocate, with oracles for the three vectors whose
growth can throw `std::bad_alloc`: `index_`, `data_` and the free list of the released bucket.  A
failed growth leaves the vector unchanged (C101).
-/
namespace Cista.MM

open Cista.Fail (Prog)

variable {α : Type}

/-- Which growth of the call fails: of `index_` or `data_` (`f.1`), of a free list (`f.2`). -/
abbrev Fails := Bool × Bool

/-- The map when the call ends and whether it ended with `std::bad_alloc`. -/
abbrev Out (α : Type) := Map α × Bool

/-- Continue unless an exception is in flight. -/
def Out.andThen (r : Res (Out α)) (k : Map α → Res (Out α)) : Res (Out α) :=
  r.bind fun o => if o.2 then .ok o else k o.1

def done (r : Res (Map α)) : Res (Out α) := r.map fun m => (m, false)

/-- mutable_fws_multimap.h:573-581 `release_bucket(old_bucket)`: line 578 may throw. -/
def Map.releaseF (W : Nat) (fail : Bool) (m : Map α) (x : Ix) : Res (Out α) :=
  if x.c = 0 then .ok (m, false) else if fail then .ok (m, true) else done (m.release W x)

/-- mutable_fws_multimap.h:530-538: the index entry is written after `release_bucket`. -/
def Map.growReuseF (W : Nat) (f : Fails) (m : Map α) (i : Nat) (old fb : Ix) : Res (Out α) :=
  if old.c = 0 then .ok (m.setIx i ⟨fb.b, old.s, fb.c⟩, false)
  else do
    let m ← m.moveEntries old.b fb.b old.s
    Out.andThen (m.releaseF W f.2 old) fun m => .ok (m.setIx i ⟨fb.b, old.s, fb.c⟩, false)

/-- mutable_fws_multimap.h:539-554: lines 543 and 548 (`data_.resize`) may throw before anything has
changed, `release_bucket` (552) after everything else has been done. -/
def Map.growEndF (W : Nat) (dflt : α) (f : Fails) (m : Map α) (i : Nat) (old : Ix) (cap : Nat) :
    Res (Out α) :=
  if f.1 then .ok (m, true)
  else if old.b + old.c = m.data.length then
    .ok ({ m with data := m.data ++ List.replicate (cap - old.c) dflt }.setIx i ⟨old.b, old.s, cap⟩, false)
  else do
    let nb := m.data.length
    let m ← { m with data := m.data ++ List.replicate cap dflt }.moveEntries old.b nb old.s
    let m := m.setIx i ⟨nb, old.s, cap⟩
    m.releaseF W f.2 old

/-- mutable_fws_multimap.h:513-555 `grow_bucket`. -/
def Map.growF (W K : Nat) (dflt : α) (f : Fails) (m : Map α) (i req : Nat) : Res (Out α) := do
  let old ← m.ix i
  let cap := newCapacity W req
  let order ← getOrder W cap
  verify (order ≤ K)
  match ← m.popFree order with
  | some (fb, m) => m.growReuseF W f i old fb
  | none => m.growEndF W dflt f i old cap

/-- mutable_fws_multimap.h:160-165 `bucket::reserve`. -/
def Map.reserveF (W K : Nat) (dflt : α) (f : Fails) (m : Map α) (i n : Nat) : Res (Out α) := do
  let x ← m.ix i
  if x.c < n then m.growF W K dflt f i n else return (m, false)

/-- mutable_fws_multimap.h:134-144, 496-511, 602-616 `push_back`, `emplace_back`: the element is
constructed and counted after the bucket has grown. -/
def Map.pushBackF (W K : Nat) (dflt : α) (f : Fails) (m : Map α) (i : Nat) (v : α) : Res (Out α) := do
  let x ← m.ix i
  Out.andThen (if x.s = x.c then m.growF W K dflt f i (x.c + 1) else .ok (m, false)) fun m => do
    let x ← m.ix i
    require (x.b + x.s < m.data.length)
    return ({ m.setIx i { x with s := x.s + 1 } with
      data := m.data.set (x.b + x.s) v, count := m.count + 1 }, false)

/-- mutable_fws_multimap.h:146-158, 249-259 `insert`: `reserve`, then the element is moved in. -/
def Map.insertF (W K : Nat) (dflt : α) (f : Fails) (m : Map α) (i pos : Nat) (v : α) : Res (Out α) := do
  let x ← m.ix i
  Out.andThen (m.reserveF W K dflt f i (x.s + 1)) fun m => done (m.insert W K dflt i pos v)

/-- mutable_fws_multimap.h:167-186 `resize`: `reserve`, then the new elements are written. -/
def Map.resizeF (W K : Nat) (dflt : α) (f : Fails) (m : Map α) (i n : Nat) (v : α) : Res (Out α) :=
  Out.andThen (m.reserveF W K dflt f i n) fun m => done (m.resize W K dflt i n v)

/-- mutable_fws_multimap.h:387-392 `operator[]`. -/
def Map.touchF (W : Nat) (fail : Bool) (m : Map α) (k : Nat) : Out α :=
  if m.index.length ≤ k then (if fail then (m, true) else (m.touch W k, false)) else (m, false)

/-- mutable_fws_multimap.h:423-430 `get_or_create`. -/
def Map.getOrCreateF (W : Nat) (fail : Bool) (m : Map α) (k : Nat) : Res (Out α) := do
  verify (k ≠ 2 ^ W - 1)
  if m.index.length ≤ k + 1 then
    if fail then return (m, true) else return (m.resizeIndex (k + 1), false)
  else return (m, false)

/-- mutable_fws_multimap.h:432-436, 573-581 `erase(i)`: `bucket.size_ = 0` (577) happens before the
`push_back` (578) that may throw, `capacity_ = 0` (579) after it. -/
def Map.eraseKeyF (W : Nat) (fail : Bool) (m : Map α) (i : Nat) : Res (Out α) :=
  match m.index[i]? with
  | none => .ok (m, false)
  | some x => if x.c = 0 then .ok (m, false)
    else if fail then .ok (m.setIx i { x with s := 0 }, true)
    else done (m.eraseKey W i)

/-- One operation with an oracle. -/
def Op.execF (W K : Nat) (dflt : α) (f : Fails) (m : Map α) : Op α → Res (Out α)
  | .index k => .ok (m.touchF W f.1 k)
  | .getOrCreate k => m.getOrCreateF W f.1 k
  | .emplaceBucket => .ok (m.touchF W f.1 m.index.length)
  | .push i v => m.pushBackF W K dflt f i v
  | .insert i pos v => m.insertF W K dflt f i pos v
  | .reserve i n => m.reserveF W K dflt f i n
  | .resize i n v => m.resizeF W K dflt f i n v
  | .eraseKey k => m.eraseKeyF W f.2 k
  | op => done (op.exec W K dflt m)

/-- Run a program that catches all exceptions; also returns which operations threw. -/
def runF (W K : Nat) (dflt : α) : Prog (Op α) Fails → Map α → Res (Map α × List Bool)
  | .done, m => .ok (m, [])
  | .step op f next, m => match op.execF W K dflt f m with
    | .ok (m', t) => (runF W K dflt (next t) m').map fun r => (r.1, t :: r.2)
    | .error .exn => (runF W K dflt (next true) m).map fun r => (r.1, true :: r.2)
    | .error e => .error e

/-! ## Specification -/

/-- The lists after an operation that threw: unchanged, except that `erase(key)` has emptied the
bucket. -/
def Op.aborted (L : List (List α)) : Op α → List (List α)
  | .eraseKey k => L.set k []
  | _ => L

/-- One operation with its outcome. -/
def Op.outcome (L : List (List α)) (op : Op α) (thrown : Bool) : List (List α) :=
  if thrown then op.aborted L else op.lists L

/-- The lists after a program with given outcomes. -/
def outcomes : Prog (Op α) Fails → List (List α) → List Bool → List (List α)
  | .step op _ next, L, t :: ts => outcomes (next t) (op.outcome L t) ts
  | _, L, _ => L

/-- The program meets every precondition, whichever operations throw, and the storage cannot exceed
the 32-bit size of the vector. -/
def AllowedF (W K : Nat) : Prog (Op α) Fails → List (List α) → Nat → Prop
  | .done, _, _ => True
  | .step op _ next, L, c => op.Pre W L ∧ c + op.cost K L ≤ 2 ^ 32 ∧
      ∀ t, AllowedF W K (next t) (op.outcome L t) (c + op.cost K L)

/-! ## Proof -/

theorem andThen_done {r : Res (Map α)} (k : Map α → Res (Out α)) :
    Out.andThen (done r) k = r.bind k := by cases r <;> rfl

/-- `growF` either is `grow`, or throws with all lists intact. -/
theorem growF_ok {W K : Nat} (hW : W = 32 ∨ W = 64) (hK : K < W) (dflt : α) (f : Fails) {m : Map α}
    {L : List (List α)} (h : Inv 0 K m L) {i req : Nat} {x : Ix} {xs : List α}
    (hi : m.index[i]? = some x) (hL : L[i]? = some xs) (hreq : x.c < req) (hlt : req < 2 ^ W) :
    m.growF W K dflt f i req = done (m.grow W K dflt i req) ∨
    ((f.1 = true ∨ f.2 = true) ∧ req ≤ 2 ^ K ∧ ∃ m', m.growF W K dflt f i req = .ok (m', true) ∧ Inv 0 K m' L ∧
      m'.count = m.count ∧ m'.data.length ≤ m.data.length + 2 * req) := by
  have hx := h.holds i x xs hi hL
  have hil := (List.getElem?_eq_some_iff.1 hi).1
  have hixok : m.ix i = .ok x := by simp [Map.ix, hi]
  unfold Map.growF Map.grow
  rw [hixok]
  rcases order_spec hW hK (show 0 < req by omega) hlt with ⟨hle, k, hkK, hcap, hord, h1, h2⟩ | ⟨hgt, o, hord, ho⟩
  · have ek : decide (k ≤ K) = true := decide_eq_true hkK
    have hkl : k < m.free.length := by rw [h.flen]; omega
    have hord' : getOrder W (2 ^ k) = .ok k := by rw [← hcap]; exact hord
    simp only [bind, Except.bind, hcap, hord', ek, verify_true, Map.popFree, List.getElem?_eq_getElem hkl]
    cases hlast : m.free[k].getLast? with
    | some fb =>
      have hfl : m.free[k]? = some m.free[k] := List.getElem?_eq_getElem hkl
      have hmem : fb ∈ m.free[k] := List.mem_of_getLast? hlast
      obtain ⟨hfc, hfb⟩ := h.free k _ fb hfl hmem
      dsimp only
      unfold Map.growReuseF Map.growReuse
      by_cases hc0 : x.c = 0
      · left; simp only [if_pos hc0]; rfl
      · simp only [if_neg hc0]
        have hsafe : ∀ (q j : Nat) (z : Ix), q < m.data.length → m.index[j]? = some z → has q z = true →
            ¬ (fb.b ≤ q ∧ q < fb.b + xs.length) := by
          intro q j z hq hj hz hh
          have := h.disjFree hj hfl hmem hq (by rw [has_iff]; have := hx.cap; omega)
          rw [hz] at this; cases this
        have hdst : fb.b + xs.length ≤ m.data.length := by have := hx.cap; omega
        obtain ⟨d, hd1, hd2, hd3, hd4⟩ := moveEntries_ok
          (m := { m with free := m.free.set k m.free[k].dropLast }) (x := x) hx (dst := fb.b) hdst (by
            intro hne
            by_cases ho : x.b + xs.length ≤ fb.b
            · exact Or.inl ho
            · by_cases ho2 : fb.b + xs.length ≤ x.b
              · exact Or.inr ho2
              · exfalso
                have hc := hx.cap; have hb := hx.bound
                by_cases hle2 : x.b ≤ fb.b
                · exact hsafe fb.b i x (by omega) hi (by rw [has_iff]; omega) (by omega)
                · exact hsafe x.b i x (by omega) hi (by rw [has_iff]; omega) (by omega))
        simp only [bind, Except.bind, hd1]
        unfold Map.releaseF
        simp only [if_neg hc0]
        cases hf2 : f.2 with
        | false =>
          left
          simp only [Bool.false_eq_true, if_false, andThen_done]
          show _ = done (((_ : Res (Map α))).bind fun m => _)
          cases Map.release W _ x <;> rfl
        | true =>
          right
          simp only [if_true]
          have hdl : d.length = m.data.length := hd2
          refine ⟨Or.inr trivial, hle, _, rfl, ?_, rfl, by simp only; omega⟩
          have hx' : Holds K d x xs := by
            refine ⟨hx.size, hx.cap, by rw [hdl]; exact hx.bound, ?_, hx.pow⟩
            intro t ht
            have hc := hx.cap; have hb := hx.bound
            rw [hd3 _ (hsafe (x.b + t) i x (by omega) hi (by rw [has_iff]; omega))]
            exact hx.get t ht
          refine h.rebuild hi hL (y := x) (by simp only; rw [set_self hi]) hx' ?_ ?_ (by simpa using h.flen) ?_ ?_
          · simp only [hdl]; exact Nat.le_refl _
          · intro q hq j z _ hj hz
            exact hd3 q (hsafe q j z hq hj hz)
          · intro j fl z hj hz
            simp only [hdl] at hj ⊢
            rw [List.getElem?_set] at hj
            by_cases hkj : k = j
            · subst hkj
              simp only [if_true, if_pos hkl, Option.some.injEq] at hj
              subst hj
              exact h.free k _ z hfl (List.dropLast_subset _ hz)
            · rw [if_neg hkj] at hj; exact h.free j fl z hj hz
          · intro p hp
            simp only [hdl] at hp
            refine ⟨Nat.zero_le _, ?_⟩
            have h4 := (h.cov p hp).2
            have h3 := flatten_countP_set hfl m.free[k].dropLast p
            have h5 : m.free[k].dropLast.countP (has p) ≤ m.free[k].countP (has p) :=
              (List.dropLast_sublist _).countP_le
            simp only [cover] at h4 ⊢
            omega
    | none =>
      dsimp only
      unfold Map.growEndF Map.growEnd
      cases hf1 : f.1 with
      | true =>
        right
        simp only [if_true]
        exact ⟨Or.inl trivial, hle, m, rfl, h, rfl, by omega⟩
      | false =>
        simp only [Bool.false_eq_true, if_false]
        by_cases hend : x.b + x.c = m.data.length
        · left; simp only [if_pos hend]; rfl
        · simp only [if_neg hend]
          have hb := hx.bound; have hc := hx.cap
          have hx' : Holds K (m.data ++ List.replicate (2 ^ k) dflt) x xs :=
            ⟨hx.size, hx.cap, by simp; omega, fun t ht => by
              rw [List.getElem?_append_left (by omega)]; exact hx.get t ht, hx.pow⟩
          obtain ⟨d, hd1, hd2, hd3, hd4⟩ := moveEntries_ok
            (m := { m with data := m.data ++ List.replicate (2 ^ k) dflt }) (x := x) hx' (dst := m.data.length)
            (by simp; omega) (by intro _; left; omega)
          simp only [bind, Except.bind, hd1]
          unfold Map.releaseF
          by_cases hc0 : x.c = 0
          · left; simp only [if_pos hc0, Map.release]; rfl
          · simp only [if_neg hc0]
            cases hf2 : f.2 with
            | false => left; simp only [Bool.false_eq_true, if_false]
            | true =>
              right
              simp only [if_true]
              have hdl : d.length = m.data.length + 2 ^ k := by rw [hd2]; simp
              refine ⟨Or.inr trivial, hle, _, rfl, ?_, rfl, by simp only [Map.setIx, hdl]; omega⟩
              have hz0 : ∀ p, m.data.length ≤ p → m.index.countP (has p) = 0 ∧ m.free.flatten.countP (has p) = 0 := by
                intro p hp
                constructor
                · rw [List.countP_eq_zero]
                  intro z hz hh
                  obtain ⟨j, hj, hjz⟩ := List.getElem_of_mem hz
                  have hjL : j < L.length := by rw [← h.len]; exact hj
                  have := (h.holds j z _ (by rw [List.getElem?_eq_getElem hj, hjz]) (List.getElem?_eq_getElem hjL)).bound
                  rw [has_iff] at hh; omega
                · rw [List.countP_eq_zero]
                  intro z hz hh
                  obtain ⟨fl, hfl, hzf⟩ := List.mem_flatten.1 hz
                  obtain ⟨j, hj, hjz⟩ := List.getElem_of_mem hfl
                  have := (h.free j fl z (by rw [List.getElem?_eq_getElem hj, hjz]) hzf).2
                  rw [has_iff] at hh; omega
              refine h.rebuild hi hL rfl ⟨hx.size, ?_, ?_, hd4, Or.inr ⟨k, hkK, rfl⟩⟩ ?_ ?_
                (by simpa [Map.setIx] using h.flen) ?_ ?_
              · simp; omega
              · simp only [Map.setIx, hdl]; omega
              · simp only [Map.setIx, hdl]; omega
              · intro q hq j z _ hj hz
                have := hd3 q (by omega)
                simp only [Map.setIx]
                rw [this, List.getElem?_append_left hq]
              · intro j fl z hj hz
                simp only [Map.setIx, hdl] at hj ⊢
                obtain ⟨h5, h6⟩ := h.free j fl z hj hz
                exact ⟨h5, by omega⟩
              · intro p hp
                simp only [Map.setIx, hdl] at hp
                refine ⟨Nat.zero_le _, ?_⟩
                have h3 := countP_set_ix (y := ⟨m.data.length, x.s, 2 ^ k⟩) hi p
                simp only [cover, Map.setIx]
                by_cases hpl : p < m.data.length
                · have h4 := h.cov p hpl
                  have h6 : has p ⟨m.data.length, x.s, 2 ^ k⟩ = false := by rw [has_false]; simp only; omega
                  rw [h6] at h3
                  simp only [cover] at h4
                  simp only [Bool.false_eq_true, if_false] at h3
                  omega
                · have h6 : has p ⟨m.data.length, x.s, 2 ^ k⟩ = true := by rw [has_iff]; simp only; omega
                  have h8 : has p x = false := by rw [has_false]; omega
                  obtain ⟨h9, h10⟩ := hz0 p (by omega)
                  rw [h6, h8] at h3
                  simp only [Bool.false_eq_true, if_false, if_true] at h3
                  omega
  · left
    have eo : decide (o ≤ K) = false := decide_eq_false (by omega)
    simp only [bind, Except.bind, hord, eo, verify_false]
    rfl


theorem reserveF_ok {W K : Nat} (hW : W = 32 ∨ W = 64) (hK : K < W) (dflt : α) (f : Fails) {m : Map α}
    {L : List (List α)} (h : Inv 0 K m L) {i n : Nat} {x : Ix} {xs : List α}
    (hi : m.index[i]? = some x) (hL : L[i]? = some xs) (hn : n < 2 ^ W) :
    m.reserveF W K dflt f i n = done (m.reserve W K dflt i n) ∨
    ((f.1 = true ∨ f.2 = true) ∧ x.c < n ∧ n ≤ 2 ^ K ∧ ∃ m', m.reserveF W K dflt f i n = .ok (m', true) ∧
      Inv 0 K m' L ∧ m'.count = m.count ∧ m'.data.length ≤ m.data.length + 2 * n) := by
  have hixok : m.ix i = .ok x := by simp [Map.ix, hi]
  unfold Map.reserveF Map.reserve
  rw [hixok]
  simp only [bind, Except.bind]
  by_cases hc : x.c < n
  · simp only [if_pos hc]
    rcases growF_ok hW hK dflt f h hi hL hc hn with e | ⟨h1, h2, m', h3⟩
    · exact Or.inl e
    · exact Or.inr ⟨h1, hc, h2, m', h3⟩
  · left; simp only [if_neg hc]; rfl

/-- Once the bucket has the capacity, `reserve` does nothing. -/
theorem reserve_same {W K : Nat} (dflt : α) {m : Map α} {i n : Nat} {x : Ix} (hi : m.index[i]? = some x)
    (hc : n ≤ x.c) : m.reserve W K dflt i n = .ok m := by
  have hixok : m.ix i = .ok x := by simp [Map.ix, hi]
  unfold Map.reserve
  rw [hixok]
  simp only [bind, Except.bind, if_neg (show ¬ x.c < n by omega)]
  rfl

/-- One operation with any oracle: it is the operation of the model without failures, or throws and
leaves every bucket as it was (`erase(key)`: has emptied its bucket). -/
theorem execF_ok {W K : Nat} (hW : W = 32 ∨ W = 64) (hK : K < W) (dflt : α) (f : Fails) {m : Map α}
    {L : List (List α)} {lost : Nat} (hR : Rel 0 K m ⟨L, lost⟩) (op : Op α) (hp : op.Pre W L)
    (hb : m.data.length + op.cost K L ≤ 2 ^ 32) :
    op.execF W K dflt f m = done (op.exec W K dflt m) ∨
    ((f.1 = true ∨ f.2 = true) ∧ op.throws K L = false ∧ ∃ m' lost', op.execF W K dflt f m = .ok (m', true) ∧
      Rel 0 K m' ⟨op.aborted L, lost'⟩ ∧ m'.data.length ≤ m.data.length + op.cost K L) := by
  have nothrow : op.needs L = 0 → op.throws K L = false := by
    intro h; simp [Op.throws, h]
  cases op with
  | index k =>
    simp only [Op.execF, Op.exec, Map.touchF]
    by_cases hk : m.index.length ≤ k
    · simp only [if_pos hk]
      cases hf : f.1 with
      | true => exact Or.inr ⟨Or.inl rfl, nothrow rfl, m, lost, rfl, hR, by omega⟩
      | false => exact Or.inl rfl
    · left; simp only [if_neg hk, Map.touch]; rfl
  | emplaceBucket =>
    simp only [Op.execF, Op.exec, Map.touchF]
    simp only [if_pos (Nat.le_refl _)]
    cases hf : f.1 with
    | true => exact Or.inr ⟨Or.inl rfl, nothrow rfl, m, lost, rfl, hR, by omega⟩
    | false => exact Or.inl rfl
  | getOrCreate k =>
    have hk : k + 1 < 2 ^ 32 := hp
    have hW2 : 2 ^ 32 ≤ 2 ^ W := Nat.pow_le_pow_right (by omega) (by omega)
    have e : decide (k ≠ 2 ^ W - 1) = true := decide_eq_true (by omega)
    simp only [Op.execF, Op.exec, Map.getOrCreateF, Map.getOrCreate, e, verify_true, bind, Except.bind, pure,
      Except.pure]
    by_cases hk2 : m.index.length ≤ k + 1
    · simp only [if_pos hk2]
      cases hf : f.1 with
      | true => exact Or.inr ⟨Or.inl rfl, nothrow rfl, m, lost, rfl, hR, by omega⟩
      | false => exact Or.inl rfl
    · left; simp only [if_neg hk2]; rfl
  | push i v =>
    have hL := bucket_of (show i < L.length from hp)
    obtain ⟨x, hi, hix, hx⟩ := hR.inv.ix hL
    have hs := hx.size
    have hcl := hx.cap_le
    have hlt := pow_succ_lt hW hK
    simp only [Op.execF, Op.exec, Map.pushBackF, Map.pushBack, Map.growIfFull]
    rw [hix]
    simp only [bind, Except.bind]
    by_cases he : x.s = x.c
    · simp only [if_pos he]
      rcases growF_ok hW hK dflt f hR.inv hi hL (show x.c < x.c + 1 by omega) (by omega) with
        e | ⟨h1, h2, m', h3, h4, h5, h6⟩
      · left
        rw [e, andThen_done]
        cases m.grow W K dflt i (x.c + 1) with
        | error e => rfl
        | ok m1 =>
          simp only [Except.bind]
          cases m1.ix i with
          | error e => rfl
          | ok y =>
            simp only [Except.bind]
            cases require (decide (y.b + y.s < m1.data.length)) <;> rfl
      · right
        have ht : (Op.push i v).throws K L = false := decide_eq_false (by simp only [Op.needs]; omega)
        refine ⟨h1, ht, m', lost, by rw [h3]; rfl, ⟨h4, by rw [h5]; exact hR.count⟩, ?_⟩
        have hfull : full (bucket L i).length = true := full_of_pow (K := K) (by
          have := hx.pow
          rw [show (bucket L i).length = x.c by omega]; exact this)
        simp only [Op.cost, ht, hfull, Bool.false_eq_true, if_false, if_true]
        omega
    · left
      simp only [if_neg he]
      simp only [Out.andThen, Except.bind, Bool.false_eq_true, if_false]
      rw [hix]
      simp only [Except.bind]
      cases require (decide (x.b + x.s < m.data.length)) <;> rfl
  | insert i pos v =>
    have hL := bucket_of hp.1
    obtain ⟨x, hi, hix, hx⟩ := hR.inv.ix hL
    have hs := hx.size
    have hcl := hx.cap_le; have hc := hx.cap
    have hlt := pow_succ_lt hW hK
    simp only [Op.execF, Op.exec, Map.insertF]
    rw [hix]
    simp only [bind, Except.bind]
    rcases reserveF_ok hW hK dflt f hR.inv hi hL (show x.s + 1 < 2 ^ W by omega) with
      e | ⟨h1, h2, h3, m', h4, h5, h6, h7⟩
    · left
      rw [e, andThen_done]
      rcases reserve_ok hW hK dflt hR.inv hi hL (show x.s + 1 < 2 ^ W by omega) with
        ⟨_, e2⟩ | ⟨_, m1, y, e2, h3, h4, h5, h6, h7⟩
      · rw [e2]
        simp only [Map.insert, hix, bind, Except.bind, e2]
        rfl
      · rw [e2]
        have hy := h3.holds i y _ h4 hL
        have hiy : m1.ix i = .ok y := by simp [Map.ix, h4]
        have hsame := reserve_same (W := W) (K := K) dflt h4 h5
        have hys : y.s = x.s := by rw [hy.size, hs]
        show done (m1.insert W K dflt i pos v) = done (m.insert W K dflt i pos v)
        congr 1
        simp only [Map.insert, hix, hiy, bind, Except.bind, e2, hys, hsame]
    · right
      have ht : (Op.insert i pos v).throws K L = false := decide_eq_false (by simp only [Op.needs]; omega)
      refine ⟨h1, ht, m', lost, by rw [h4]; rfl, ⟨h5, by rw [h6]; exact hR.count⟩, ?_⟩
      have hfull : full (bucket L i).length = true := full_of_pow (K := K) (by
        have := hx.pow
        rw [show (bucket L i).length = x.c by omega]; exact this)
      simp only [Op.cost, ht, hfull, Bool.false_eq_true, if_false, if_true]
      omega
  | reserve i n =>
    have hL := bucket_of hp.1
    obtain ⟨x, hi, hix, hx⟩ := hR.inv.ix hL
    rcases reserveF_ok hW hK dflt f hR.inv hi hL hp.2 with e | ⟨h1, h2, h3, m', h4, h5, h6, h7⟩
    · exact Or.inl e
    · right
      have ht : (Op.reserve i n : Op α).throws K L = false := decide_eq_false (by simp only [Op.needs]; omega)
      refine ⟨h1, ht, m', lost, h4, ⟨h5, by rw [h6]; exact hR.count⟩, ?_⟩
      simp only [Op.cost, ht, Bool.false_eq_true, if_false]
      omega
  | resize i n v =>
    have hL := bucket_of hp.1
    obtain ⟨x, hi, hix, hx⟩ := hR.inv.ix hL
    have hs := hx.size; have hc := hx.cap
    simp only [Op.execF, Op.exec, Map.resizeF]
    rcases reserveF_ok hW hK dflt f hR.inv hi hL hp.2 with e | ⟨h1, h2, h3, m', h4, h5, h6, h7⟩
    · left
      rw [e, andThen_done]
      rcases reserve_ok hW hK dflt hR.inv hi hL hp.2 with ⟨_, e2⟩ | ⟨_, m1, y, e2, h3, h4, h5, h6, h7⟩
      · rw [e2]
        simp only [Map.resize, hix, bind, Except.bind, e2]
        rfl
      · rw [e2]
        have hy := h3.holds i y _ h4 hL
        have hiy : m1.ix i = .ok y := by simp [Map.ix, h4]
        have hsame := reserve_same (W := W) (K := K) dflt h4 h5
        have hys : y.s = x.s := by rw [hy.size, hs]
        show done (m1.resize W K dflt i n v) = done (m.resize W K dflt i n v)
        congr 1
        simp only [Map.resize, hix, hiy, bind, Except.bind, e2, hys, hsame]
    · right
      have ht : (Op.resize i n v).throws K L = false := decide_eq_false (by simp only [Op.needs]; omega)
      refine ⟨h1, ht, m', lost, by rw [h4]; rfl, ⟨h5, by rw [h6]; exact hR.count⟩, ?_⟩
      simp only [Op.cost, ht, Bool.false_eq_true, if_false]
      rw [if_pos (by omega)]
      omega
  | eraseKey k =>
    simp only [Op.execF, Op.exec, Map.eraseKeyF]
    cases hk : m.index[k]? with
    | none => left; simp only [Map.eraseKey, hk]; rfl
    | some x =>
      simp only
      by_cases hc0 : x.c = 0
      · left; simp only [if_pos hc0, Map.eraseKey, hk]; rfl
      · simp only [if_neg hc0]
        cases hf : f.2 with
        | false => exact Or.inl rfl
        | true =>
          right
          have hkl : k < L.length := by
            have := hR.inv.len
            have := (List.getElem?_eq_some_iff.1 hk).1
            simp only at *; omega
          have hL := bucket_of hkl
          refine ⟨Or.inr rfl, nothrow rfl, _, lost + (bucket L k).length, rfl, ⟨?_, ?_⟩, ?_⟩
          · exact hR.inv.update hk hL (xs' := []) rfl rfl rfl (by intros; rfl) (by simp) (by simp)
          · have h1 := hR.count
            have h2 := total_set hL []
            simp only [Op.aborted, Map.setIx, List.length_nil] at h1 h2 ⊢
            omega
          · simp [Map.setIx]
  | popBack i => exact Or.inl rfl
  | clearBucket i => exact Or.inl rfl
  | erase i pos => exact Or.inl rfl
  | eraseRange i p q => exact Or.inl rfl
  | write i j v => exact Or.inl rfl
  | clear => exact Or.inl rfl

theorem runF_ok {W K : Nat} (hW : W = 32 ∨ W = 64) (hK : K < W) (dflt : α) (p : Prog (Op α) Fails) :
    ∀ {m : Map α} {L : List (List α)} {lost c : Nat}, Rel 0 K m ⟨L, lost⟩ → m.data.length ≤ c →
      AllowedF W K p L c →
      ∃ m' ts lost', runF W K dflt p m = .ok (m', ts) ∧ Rel 0 K m' ⟨outcomes p L ts, lost'⟩ := by
  induction p with
  | done => intro m L lost c hR hd _; exact ⟨m, [], lost, rfl, hR⟩
  | step op f next ih =>
    intro m L lost c hR hd hA
    obtain ⟨hp, hc, hA⟩ := hA
    have hb : m.data.length + op.cost K L ≤ 2 ^ 32 := by omega
    have step : ∀ {m1 : Map α} {lost1 : Nat} (t : Bool), Rel 0 K m1 ⟨op.outcome L t, lost1⟩ →
        m1.data.length ≤ m.data.length + op.cost K L →
        ((op.execF W K dflt f m = .ok (m1, t)) ∨ (op.execF W K dflt f m = .error .exn ∧ m1 = m ∧ t = true)) →
        ∃ m' ts lost', runF W K dflt (.step op f next) m = .ok (m', ts) ∧
          Rel 0 K m' ⟨outcomes (.step op f next) L ts, lost'⟩ := by
      intro m1 lost1 t hR1 hd1 he
      obtain ⟨m', ts, lost', h1, h3⟩ := ih t hR1 (c := c + op.cost K L) (by omega) (hA t)
      refine ⟨m', t :: ts, lost', ?_, h3⟩
      rcases he with he | ⟨he, hm, ht⟩
      · simp only [runF, he, h1, Except.map]
      · subst hm; subst ht
        simp only [runF, he, h1, Except.map]
    rcases execF_ok hW hK dflt f hR op hp hb with e | ⟨_, _, m1, lost1, e, hR1, hd1⟩
    · rcases exec_ok hW hK dflt hR op hp hb with ⟨ht, he⟩ | ⟨ht, m1, he, hR1, hd1⟩
      · rw [he] at e
        refine step (m1 := m) (lost1 := lost) true ?_ (by omega) (Or.inr ⟨e, rfl, rfl⟩)
        have : op.outcome L true = L := by
          cases op with
          | eraseKey k => simp [Op.throws, Op.needs] at ht
          | _ => rfl
        rw [this]; exact hR
      · rw [he] at e
        exact step false hR1 hd1 (Or.inl e)
    · exact step true hR1 hd1 (Or.inl e)

/-- **C102** Whatever allocations fail while a program uses a mutable multimap, the map represents the
lists obtained by carrying out the operations that did not throw and skipping those that did — only
`erase(key)`, when it throws, has emptied the bucket.  In particular every bucket has exactly its
elements in order and buckets do not interfere with each other. -/
theorem C102_history {W K : Nat} (hW : W = 32 ∨ W = 64) (hK : K < W) (dflt : α)
    (p : Prog (Op α) Fails) (hA : AllowedF W K p [] 0) :
    ∃ m ts, runF W K dflt p (Map.empty K) = .ok (m, ts) ∧
      m.index.length = (outcomes p [] ts).length ∧
      ∀ i xs, (outcomes p [] ts)[i]? = some xs → m.contents i = .ok xs := by
  obtain ⟨m, ts, lost, h1, h3⟩ := runF_ok hW hK dflt p (empty_rel K (Nat.zero_le 1))
    (c := 0) (by simp [Map.empty]) hA
  exact ⟨m, ts, h1, h3.inv.len, fun i xs hi => h3.inv.contents hi⟩

/-- **C102** An operation throws only if an allocation failed or the bucket would become too large,
and in the first case the storage grows at most by what the operation would have used. -/
theorem C102_step {W K : Nat} (hW : W = 32 ∨ W = 64) (hK : K < W) (dflt : α) (f : Fails) (m : Map α)
    (L : List (List α)) (lost : Nat) (hR : Rel 0 K m ⟨L, lost⟩) (op : Op α) (hp : op.Pre W L)
    (hb : m.data.length + op.cost K L ≤ 2 ^ 32) :
    (op.throws K L = true ∧ op.execF W K dflt f m = .error .exn) ∨
    ∃ m' t lost', op.execF W K dflt f m = .ok (m', t) ∧ Rel 0 K m' ⟨op.outcome L t, lost'⟩ ∧
      m'.data.length ≤ m.data.length + op.cost K L ∧ (t = true → f.1 = true ∨ f.2 = true) := by
  rcases execF_ok hW hK dflt f hR op hp hb with e | ⟨hf, _, m1, lost1, e, hR1, hd1⟩
  · rcases exec_ok hW hK dflt hR op hp hb with ⟨ht, he⟩ | ⟨ht, m1, he, hR1, hd1⟩
    · rw [he] at e; exact Or.inl ⟨ht, e⟩
    · rw [he] at e; exact Or.inr ⟨m1, false, _, e, hR1, hd1, by simp⟩
  · exact Or.inr ⟨m1, true, lost1, e, hR1, hd1, fun _ => hf⟩

/-- Non-vacuity (C102): failures of `index_`, `data_` and of a free list. -/
example : ∃ m, runF 32 4 (0 : Nat) (.ofList
    [(.index 1, (false, false)), (.index 7, (true, false)), (.push 0 5, (false, false)), (.push 1 6, (false, false)),
     (.push 0 7, (true, false)), (.push 0 8, (false, true)), (.push 0 9, (false, false)),
     (.eraseKey 1, (false, true)), (.push 1 3, (true, true))]) (Map.empty 4) =
      .ok (m, [false, true, false, false, true, true, false, true, false]) ∧
    (m.contents 0).toOption = some [5, 9] ∧ (m.contents 1).toOption = some [3] := ⟨_, rfl, rfl, rfl⟩

/-- Non-vacuity (C102): a program that stops when the key could not be created. -/
example (f g h : Fails) : AllowedF 32 4 (.step (.index 1) f fun t => if t then .done else
    .step (.push 0 5) g fun _ => .step (.eraseKey 0) h fun _ => .done) ([] : List (List Nat)) 0 := by
  refine ⟨show 1 + 1 < 2 ^ 32 by decide, by decide, ?_⟩
  intro t
  cases t with
  | true => trivial
  | false =>
    refine ⟨show 0 < 2 by decide, by decide, ?_⟩
    intro t
    cases t <;> exact ⟨trivial, by decide, fun _ => trivial⟩

end Cista.MM

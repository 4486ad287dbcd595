import Verif.MM.Props

/-!
# Arguments that refer to elements of the multimap itself

`push_back` and `insert` of a mutable multimap (include/cista/containers/mutable_fws_multimap.h) where the value is a reference to one of its own elements: the
element `p` of bucket `j`, i.e. the cell `begin_ + p` of `data_`.  The cell is read when the code reads it.  `cap` is the capacity of the vector `data_`: when it
grows beyond, it moves to new memory and the reference is dangling.
-/
namespace Cista.MM

variable {α : Type}

/-! ## Model -/

/-- Reading a reference to the cell `q` of `data_`, obtained while `data_` had the capacity `cap`. -/
def Map.readRef (m : Map α) (cap q : Nat) : Res α :=
  if m.data.length ≤ cap then
    match m.data[q]? with
    | some v => .ok v
    | none => .error .ub
  else .error .ub

/-- mutable_fws_multimap.h:121-124: the cell that `m[j][p]` refers to. -/
def Map.cell (m : Map α) (j p : Nat) : Res Nat := do
  let y ← m.ix j
  require (p < y.s)
  return y.b + p

/-- mutable_fws_multimap.h:134-144, 602-616 `m[i].push_back(m[j][p])`: the bucket grows (603, 612), then the value is read (604, 613). -/
def Map.pushBackRef (W K : Nat) (dflt : α) (cap : Nat) (m : Map α) (i j p : Nat) : Res (Map α) := do
  let q ← m.cell j p
  let x ← m.ix i
  let m ← m.growIfFull W K dflt i x
  let x ← m.ix i
  let v ← m.readRef cap q
  require (x.b + x.s < m.data.length)
  return { m.setIx i { x with s := x.s + 1 } with data := m.data.set (x.b + x.s) v, count := m.count + 1 }

/-- mutable_fws_multimap.h:146-158, 249-259 `m[i].insert(m[i].begin() + pos, m[j][p])`: the bucket grows (253), its elements from `pos` on move by one (255), then the value is read (149, 156). -/
def Map.insertRef (W K : Nat) (dflt : α) (cap : Nat) (m : Map α) (i pos j p : Nat) : Res (Map α) := do
  let q ← m.cell j p
  let x ← m.ix i
  let m ← m.reserve W K dflt i (x.s + 1)
  let x ← m.ix i
  require (pos ≤ x.s)
  let tail ← m.slice (x.b + pos) (x.s - pos)
  require (x.b + x.s + 1 ≤ m.data.length)
  let d := blit m.data (x.b + pos + 1) tail
  let v ← ({ m with data := d } : Map α).readRef cap q
  return { m.setIx i { x with s := x.s + 1 } with data := d.set (x.b + pos) v, count := m.count + 1 }

/-! ## Growing keeps the cells that are in use -/

theorem release_data {W : Nat} {m m' : Map α} {x : Ix} (h : m.release W x = .ok m') : m'.data = m.data ∧ m'.index = m.index := by
  unfold Map.release at h
  by_cases h0 : x.c = 0
  · rw [if_pos h0] at h
    cases h
    exact ⟨rfl, rfl⟩
  · rw [if_neg h0] at h
    cases ho : getOrder W x.c with
    | error e => rw [ho] at h; cases h
    | ok o =>
      rw [ho, ok_bind] at h
      cases hf : m.free[o]? with
      | none => simp [hf] at h
      | some fl =>
        simp only [hf] at h
        cases h
        exact ⟨rfl, rfl⟩

theorem moveEntries_keeps {m m' : Map α} {s d n : Nat} (h : m.moveEntries s d n = .ok m') :
    m'.index = m.index ∧ m'.data.length = m.data.length ∧ ∀ q, ¬ (d ≤ q ∧ q < d + n) → m'.data[q]? = m.data[q]? := by
  unfold Map.moveEntries at h
  by_cases h0 : n = 0
  · rw [if_pos h0] at h
    cases h
    exact ⟨rfl, rfl, fun _ _ => rfl⟩
  · rw [if_neg h0] at h
    unfold Map.slice at h
    by_cases h1 : s + n ≤ m.data.length
    · rw [decide_eq_true h1, require_true, ok_bind, pure_ok, ok_bind] at h
      by_cases h2 : d + n ≤ m.data.length
      · rw [decide_eq_true h2, require_true, ok_bind] at h
        cases h3 : (decide (s + n ≤ d) || decide (d + n ≤ s)) with
        | false => rw [h3, require_false] at h; cases h
        | true =>
          rw [h3, require_true, ok_bind, pure_ok] at h
          cases h
          have hl : ((m.data.drop s).take n).length = n := by rw [List.length_take, List.length_drop]; omega
          refine ⟨rfl, blit_length _ _ _ (by omega), fun q hq => ?_⟩
          show (blit m.data d ((m.data.drop s).take n))[q]? = _
          rw [blit_get _ _ _ (by omega), hl, if_neg hq]
      · rw [decide_eq_false h2, require_false] at h; cases h
    · rw [decide_eq_false h1, require_false] at h; cases h

/-- What growing bucket `i` leaves alone: the cells in use; and the new region of the bucket has none of them, except those of the bucket itself if it stays where it is. -/
theorem grow_keeps {W K : Nat} (hW : W = 32 ∨ W = 64) (hK : K < W) (dflt : α) {m m' : Map α} {L : List (List α)} (h : Inv lo K m L) {i req : Nat} {x : Ix}
    {xs : List α} (hi : m.index[i]? = some x) (hL : L[i]? = some xs) (hreq : x.c < req) (hlt : req < 2 ^ W) (hg : m.grow W K dflt i req = .ok m')
    {j q : Nat} {z : Ix} {zs : List α} (hj : m.index[j]? = some z) (hz : L[j]? = some zs) (h1 : z.b ≤ q) (h2 : q < z.b + z.s) :
    m'.data[q]? = m.data[q]? ∧ ∀ y, m'.index[i]? = some y → (j = i ∧ y.b = x.b) ∨ ¬ (y.b ≤ q ∧ q < y.b + y.c) := by
  have hx := h.holds i x xs hi hL
  have hzh := h.holds j z zs hj hz
  have hil := (List.getElem?_eq_some_iff.1 hi).1
  have hixok : m.ix i = .ok x := by simp [Map.ix, hi]
  have hzs := hzh.size; have hzc := hzh.cap; have hzb := hzh.bound
  have hxs := hx.size; have hxc := hx.cap; have hxb := hx.bound
  have hqz : has q z = true := has_iff.2 ⟨h1, by omega⟩
  have hql : q < m.data.length := by omega
  unfold Map.grow at hg
  rw [hixok, ok_bind] at hg
  dsimp only at hg
  rcases order_spec hW hK (show 0 < req by omega) hlt with ⟨hle, k, hkK, hcap, hord, g1, g2⟩ | ⟨hgt, o, hord, ho⟩
  · have hkl : k < m.free.length := by rw [h.flen]; omega
    have hfl : m.free[k]? = some m.free[k] := List.getElem?_eq_getElem hkl
    rw [hord, ok_bind, decide_eq_true hkK, verify_true, ok_bind, hcap] at hg
    unfold Map.popFree at hg
    rw [hfl] at hg
    dsimp only at hg
    cases hlast : m.free[k].getLast? with
    | some fb =>
      rw [hlast] at hg
      dsimp only at hg
      rw [ok_bind] at hg
      dsimp only at hg
      have hmem : fb ∈ m.free[k] := List.mem_of_getLast? hlast
      obtain ⟨hfc, hfb⟩ := h.free k _ fb hfl hmem
      have hdis : ¬ (fb.b ≤ q ∧ q < fb.b + fb.c) := by
        intro hq
        have := h.disjFree hj hfl hmem hql (has_iff.2 hq)
        rw [hqz] at this
        cases this
      unfold Map.growReuse at hg
      by_cases hc0 : x.c = 0
      · rw [if_pos hc0] at hg
        cases hg
        refine ⟨rfl, fun y hy => .inr ?_⟩
        have hy : (m.index.set i ⟨fb.b, x.s, fb.c⟩)[i]? = some y := hy
        rw [List.getElem?_set, if_pos rfl, if_pos hil] at hy
        cases hy
        exact hdis
      · rw [if_neg hc0] at hg
        cases hm : Map.moveEntries { m with free := m.free.set k m.free[k].dropLast } x.b fb.b x.s with
        | error e => rw [hm] at hg; cases hg
        | ok m1 =>
          rw [hm, ok_bind] at hg
          obtain ⟨k1, _, k2⟩ := moveEntries_keeps hm
          cases hr : m1.release W x with
          | error e => rw [hr] at hg; cases hg
          | ok m2 =>
            rw [hr, ok_bind, pure_ok] at hg
            cases hg
            obtain ⟨k3, k4⟩ := release_data hr
            refine ⟨?_, fun y hy => .inr ?_⟩
            · show m2.data[q]? = _
              rw [k3]
              exact k2 q (by omega)
            · have hy : (m2.index.set i ⟨fb.b, x.s, fb.c⟩)[i]? = some y := hy
              rw [k4, k1, List.getElem?_set, if_pos rfl, if_pos hil] at hy
              cases hy
              exact hdis
    | none =>
      rw [hlast] at hg
      dsimp only at hg
      rw [ok_bind] at hg
      dsimp only at hg
      unfold Map.growEnd at hg
      by_cases he : x.b + x.c = m.data.length
      · rw [if_pos he] at hg
        cases hg
        refine ⟨?_, fun y hy => ?_⟩
        · show (m.data ++ _)[q]? = _
          rw [List.getElem?_append_left hql]
        · have hy : (m.index.set i ⟨x.b, x.s, 2 ^ k⟩)[i]? = some y := hy
          rw [List.getElem?_set, if_pos rfl, if_pos hil] at hy
          cases hy
          by_cases hji : j = i
          · exact .inl ⟨hji, rfl⟩
          · right
            intro hq
            have hq' : has q x = false := h.disj hji hj hi hql hqz
            rw [has_false] at hq'
            have : x.b ≤ q := hq.1
            omega
      · rw [if_neg he] at hg
        dsimp only at hg
        cases hm : Map.moveEntries { m with data := m.data ++ List.replicate (2 ^ k) dflt } x.b m.data.length x.s with
        | error e => rw [hm] at hg; cases hg
        | ok m1 =>
          rw [hm, ok_bind] at hg
          obtain ⟨k1, _, k2⟩ := moveEntries_keeps hm
          obtain ⟨k3, k4⟩ := release_data hg
          refine ⟨?_, fun y hy => .inr ?_⟩
          · rw [k3]
            show m1.data[q]? = _
            rw [k2 q (by omega)]
            show (m.data ++ _)[q]? = _
            rw [List.getElem?_append_left hql]
          · rw [k4] at hy
            have hy : (m1.index.set i ⟨m.data.length, x.s, 2 ^ k⟩)[i]? = some y := hy
            rw [k1, List.getElem?_set, if_pos rfl, if_pos hil] at hy
            cases hy
            show ¬ (m.data.length ≤ q ∧ _)
            omega
  · rw [hord, ok_bind, decide_eq_false (by omega), verify_false] at hg
    cases hg

theorem cell_ok {K : Nat} {m : Map α} {L : List (List α)} (h : Inv lo K m L) {j p : Nat} {zs : List α} {v : α} (hz : L[j]? = some zs) (hp : zs[p]? = some v) :
    ∃ z, m.index[j]? = some z ∧ Holds K m.data z zs ∧ m.cell j p = .ok (z.b + p) ∧ p < z.s ∧ m.data[z.b + p]? = some v := by
  obtain ⟨z, hj, hix, hh⟩ := h.ix hz
  have hpl := (List.getElem?_eq_some_iff.1 hp).1
  have hs := hh.size
  refine ⟨z, hj, hh, ?_, by omega, by rw [hh.get p hpl, hp]⟩
  unfold Map.cell
  rw [hix, ok_bind, decide_eq_true (by omega), require_true, ok_bind, pure_ok]

/-- Growing the bucket for an insertion: an exception, or what `grow_keeps` says, also if there is room already. -/
theorem growIfFull_keeps {W K : Nat} (hW : W = 32 ∨ W = 64) (hK : K < W) (dflt : α) {m m' : Map α} {L : List (List α)} (h : Inv lo K m L) {i : Nat} {x : Ix}
    {xs : List α} (hi : m.index[i]? = some x) (hL : L[i]? = some xs) (hlt : x.c + 1 < 2 ^ W) (hg : m.growIfFull W K dflt i x = .ok m')
    {j q : Nat} {z : Ix} {zs : List α} (hj : m.index[j]? = some z) (hz : L[j]? = some zs) (h1 : z.b ≤ q) (h2 : q < z.b + z.s) :
    m'.data[q]? = m.data[q]? := by
  unfold Map.growIfFull at hg
  by_cases hf : x.s = x.c
  · rw [if_pos hf] at hg
    exact (grow_keeps hW hK dflt h hi hL (by omega) hlt hg hj hz h1 h2).1
  · rw [if_neg hf] at hg
    cases hg
    rfl

theorem cap_lt {W K : Nat} (hW : W = 32 ∨ W = 64) (hK : K < W) {data : List α} {x : Ix} {xs : List α} (h : Holds K data x xs) : x.c + 1 < 2 ^ W := by
  have h2 : 2 ≤ W := by omega
  have hp := Nat.pow_le_pow_right (n := 2) (by decide) (show K ≤ W - 1 by omega)
  have hd : 2 ^ W = 2 * 2 ^ (W - 1) := by rw [← Nat.pow_succ']; congr 1; omega
  have h4 : 2 ^ 1 ≤ 2 ^ (W - 1) := Nat.pow_le_pow_right (by decide) (by omega)
  rcases h.pow with h0 | ⟨k, hk, e⟩
  · omega
  · have := Nat.pow_le_pow_right (n := 2) (by decide) hk
    omega

/-- What a call with a reference does, given what it does with a value: the same, if the cells stay where they are. -/
def orDangling (cap : Nat) (r : Res (Map α)) : Res (Map α) := do
  let m ← r
  if m.data.length ≤ cap then .ok m else .error .ub

theorem pushBackRef_eq {W K : Nat} (hW : W = 32 ∨ W = 64) (hK : K < W) (dflt : α) {m : Map α} {L : List (List α)} (h : Inv lo K m L) {i j p : Nat}
    {xs zs : List α} {v : α} (hL : L[i]? = some xs) (hz : L[j]? = some zs) (hp : zs[p]? = some v) (cap : Nat) :
    m.pushBackRef W K dflt cap i j p = orDangling cap (m.pushBack W K dflt i v) := by
  obtain ⟨z, hj, _, hc, hps, hv⟩ := cell_ok h hz hp
  obtain ⟨x, hi, hix, hx⟩ := h.ix hL
  unfold Map.pushBackRef Map.pushBack orDangling
  rw [hc, ok_bind, hix, ok_bind, ok_bind]
  cases hg : m.growIfFull W K dflt i x with
  | error e => rfl
  | ok m1 =>
    rw [ok_bind, ok_bind]
    have hk := growIfFull_keeps hW hK dflt h hi hL (cap_lt hW hK hx) hg hj hz (Nat.le_add_right z.b p) (by omega)
    cases hy : m1.ix i with
    | error e => rfl
    | ok y =>
      rw [ok_bind, ok_bind]
      unfold Map.readRef
      rw [hk, hv]
      dsimp only
      by_cases hl : m1.data.length ≤ cap
      · rw [if_pos hl, ok_bind]
        cases hr : decide (y.b + y.s < m1.data.length) with
        | false => rw [require_false]; rfl
        | true =>
          rw [require_true, ok_bind, pure_ok, ok_bind, if_pos]
          show (m1.data.set (y.b + y.s) v).length ≤ cap
          rw [List.length_set]
          exact hl
      · rw [if_neg hl, error_bind]
        cases hr : decide (y.b + y.s < m1.data.length) with
        | false => rw [require_false]; rfl
        | true =>
          rw [require_true, ok_bind, pure_ok, ok_bind, if_neg]
          show ¬ (m1.data.set (y.b + y.s) v).length ≤ cap
          rw [List.length_set]
          exact hl

/-- The value read by `insert`. -/
theorem insertRef_eq {W K : Nat} (hW : W = 32 ∨ W = 64) (hK : K < W) (dflt : α) {m : Map α} {L : List (List α)} (h : Inv lo K m L) {i pos j p : Nat}
    {xs zs : List α} {v : α} (hL : L[i]? = some xs) (hpos : pos ≤ xs.length) (hz : L[j]? = some zs) (hp : zs[p]? = some v) (hd : j ≠ i ∨ p ≤ pos) (cap : Nat) :
    m.insertRef W K dflt cap i pos j p = orDangling cap (m.insert W K dflt i pos v) := by
  obtain ⟨z, hj, hzh, hc, hps, hv⟩ := cell_ok h hz hp
  obtain ⟨x, hi, hix, hx⟩ := h.ix hL
  have hs := hx.size; have hxc := hx.cap; have hxb := hx.bound
  have hzs := hzh.size; have hzc := hzh.cap; have hzb := hzh.bound
  unfold Map.insertRef Map.insert orDangling
  rw [hc, ok_bind, hix, ok_bind, ok_bind]
  have hcl := cap_lt hW hK hx
  rcases reserve_ok hW hK dflt h hi hL (n := x.s + 1) (by omega) with ⟨_, h2⟩ | ⟨_, m1, y, h2, h3, h4, h5, _, _⟩
  · rw [h2]; rfl
  · rw [h2, ok_bind, ok_bind]
    have hyix : m1.ix i = .ok y := by simp [Map.ix, h4]
    have hyh := h3.holds i y xs h4 hL
    have hys := hyh.size; have hyb := hyh.bound
    have hk : m1.data[z.b + p]? = m.data[z.b + p]? ∧ ¬ (y.b + pos + 1 ≤ z.b + p ∧ z.b + p < y.b + y.s + 1) := by
      unfold Map.reserve at h2
      rw [hix, ok_bind] at h2
      by_cases hfull : x.c < x.s + 1
      · rw [if_pos hfull] at h2
        obtain ⟨e1, e2⟩ := grow_keeps hW hK dflt h hi hL hfull (by omega) h2 hj hz (Nat.le_add_right z.b p) (by omega)
        refine ⟨e1, ?_⟩
        rcases e2 y h4 with ⟨hji, hb⟩ | hn
        · subst hji
          rw [hi] at hj
          cases hj
          omega
        · omega
      · rw [if_neg hfull] at h2
        cases h2
        rw [hi] at h4
        cases h4
        refine ⟨rfl, ?_⟩
        by_cases hji : j = i
        · subst hji
          rw [hi] at hj
          cases hj
          omega
        · have := h.disj hji hj hi (p := z.b + p) (by omega) (has_iff.2 ⟨by omega, by omega⟩)
          rw [has_false] at this
          omega
    rw [hyix, ok_bind, ok_bind, decide_eq_true (show pos ≤ y.s by omega), require_true, ok_bind, ok_bind, hyh.slice (by omega), ok_bind, ok_bind,
      decide_eq_true (show y.b + y.s + 1 ≤ m1.data.length by omega), require_true, ok_bind, ok_bind, pure_ok]
    dsimp only
    have htl : ((xs.drop pos).take (y.s - pos)).length = y.s - pos := by rw [List.length_take, List.length_drop]; omega
    have hbl : (blit m1.data (y.b + pos + 1) ((xs.drop pos).take (y.s - pos))).length = m1.data.length := blit_length _ _ _ (by omega)
    have hbg : (blit m1.data (y.b + pos + 1) ((xs.drop pos).take (y.s - pos)))[z.b + p]? = some v := by
      rw [blit_get _ _ _ (by omega), htl, if_neg (by omega), hk.1, hv]
    unfold Map.readRef
    dsimp only
    rw [hbl, hbg]
    by_cases hl : m1.data.length ≤ cap
    · rw [if_pos hl]
      dsimp only
      rw [ok_bind, ok_bind, pure_ok, List.length_set, hbl, if_pos hl]
    · rw [if_neg hl, error_bind, ok_bind, List.length_set, hbl, if_neg hl]

/-! ## C128 -/

/-- **C128** After every history `m[i].push_back(m[j][p])` does exactly what it does with a copy of the element, exceptions included, if the cells fit into the
capacity that the vector of cells has (`reserve(index, data)` reserves it). -/
theorem C128_push_back_partial {W K : Nat} (hW : W = 32 ∨ W = 64) (hK : K < W) (dflt : α) {ops : List (Op α)}
    (hA : Allowed W K ops start) (hc : (specRun K ops).cost ≤ 2 ^ 32) {m : Map α} {t : List Bool} (hr : run W K dflt ops (Map.empty K) = .ok (m, t))
    {i j p : Nat} {xs zs : List α} {v : α} (hi : (specRun K ops).lists[i]? = some xs) (hj : (specRun K ops).lists[j]? = some zs) (hp : zs[p]? = some v)
    {cap : Nat} (hcap : ∀ m', m.pushBack W K dflt i v = .ok m' → m'.data.length ≤ cap) :
    m.pushBackRef W K dflt cap i j p = m.pushBack W K dflt i v := by
  rw [pushBackRef_eq hW hK dflt (history_rel hW hK dflt hA hc hr).1.inv hi hj hp]
  unfold orDangling
  cases hb : m.pushBack W K dflt i v with
  | error e => rfl
  | ok m' => rw [ok_bind, if_pos (hcap m' hb)]

/-- **C128** After every history `m[i].insert(m[i].begin() + pos, m[j][p])` does exactly what it does with a copy of the element, exceptions included, if the cells fit
into the capacity and the element is in another bucket or not behind the position. -/
theorem C128_insert_partial {W K : Nat} (hW : W = 32 ∨ W = 64) (hK : K < W) (dflt : α) {ops : List (Op α)}
    (hA : Allowed W K ops start) (hc : (specRun K ops).cost ≤ 2 ^ 32) {m : Map α} {t : List Bool} (hr : run W K dflt ops (Map.empty K) = .ok (m, t))
    {i pos j p : Nat} {xs zs : List α} {v : α} (hi : (specRun K ops).lists[i]? = some xs) (hpos : pos ≤ xs.length) (hj : (specRun K ops).lists[j]? = some zs)
    (hp : zs[p]? = some v) (hd : j ≠ i ∨ p ≤ pos) {cap : Nat} (hcap : ∀ m', m.insert W K dflt i pos v = .ok m' → m'.data.length ≤ cap) :
    m.insertRef W K dflt cap i pos j p = m.insert W K dflt i pos v := by
  rw [insertRef_eq hW hK dflt (history_rel hW hK dflt hA hc hr).1.inv hi hpos hj hp hd]
  unfold orDangling
  cases hb : m.insert W K dflt i pos v with
  | error e => rfl
  | ok m' => rw [ok_bind, if_pos (hcap m' hb)]

/-- **C128 (violated)** If the cells do not fit into the capacity, the element is read after the cells have moved: undefined behaviour, after every history and for every
element, with `push_back` and with `insert`. -/
theorem C128_moved_violated {W K : Nat} (hW : W = 32 ∨ W = 64) (hK : K < W) (dflt : α) {ops : List (Op α)}
    (hA : Allowed W K ops start) (hc : (specRun K ops).cost ≤ 2 ^ 32) {m : Map α} {t : List Bool} (hr : run W K dflt ops (Map.empty K) = .ok (m, t))
    {i pos j p : Nat} {xs zs : List α} {v : α} (hi : (specRun K ops).lists[i]? = some xs) (hpos : pos ≤ xs.length) (hj : (specRun K ops).lists[j]? = some zs)
    (hp : zs[p]? = some v) (cap : Nat) :
    (∀ m', m.pushBack W K dflt i v = .ok m' → cap < m'.data.length → m.pushBackRef W K dflt cap i j p = .error .ub) ∧
    (j ≠ i ∨ p ≤ pos → ∀ m', m.insert W K dflt i pos v = .ok m' → cap < m'.data.length → m.insertRef W K dflt cap i pos j p = .error .ub) := by
  have hinv := (history_rel hW hK dflt hA hc hr).1.inv
  constructor
  · intro m' hb hl
    rw [pushBackRef_eq hW hK dflt hinv hi hj hp, hb]
    unfold orDangling
    rw [ok_bind, if_neg (by omega)]
  · intro hd m' hb hl
    rw [insertRef_eq hW hK dflt hinv hi hpos hj hp hd, hb]
    unfold orDangling
    rw [ok_bind, if_neg (by omega)]

/-- **C128 (violated)** Inserting an element of the same bucket from behind the position, into a bucket with room: after every history, not the element is inserted but the one
before it. -/
theorem C128_shifted_violated {W K : Nat} (hW : W = 32 ∨ W = 64) (hK : K < W) (dflt : α) {ops : List (Op α)}
    (hA : Allowed W K ops start) (hc : (specRun K ops).cost ≤ 2 ^ 32) {m : Map α} {t : List Bool} (hr : run W K dflt ops (Map.empty K) = .ok (m, t))
    {i pos p : Nat} {xs : List α} {v u : α} {x : Ix} (hi : (specRun K ops).lists[i]? = some xs) (hx : m.index[i]? = some x) (hroom : x.s < x.c) (hpos : pos ≤ p)
    (hv : xs[p + 1]? = some v) (hu : xs[p]? = some u) {cap : Nat} (hcap : m.data.length ≤ cap) :
    m.insertRef W K dflt cap i pos i (p + 1) = m.insert W K dflt i pos u := by
  have h := (history_rel hW hK dflt hA hc hr).1.inv
  obtain ⟨z, hj, hzh, hcell, hps, hval⟩ := cell_ok h hi hv
  rw [hx] at hj
  cases hj
  have hix : m.ix i = .ok x := by simp [Map.ix, hx]
  have hs := hzh.size; have hxc := hzh.cap; have hxb := hzh.bound
  have hres : m.reserve W K dflt i (x.s + 1) = .ok m := by
    unfold Map.reserve
    rw [hix, ok_bind, if_neg (by omega), pure_ok]
  unfold Map.insertRef Map.insert
  rw [hcell, ok_bind, hix, ok_bind, ok_bind, hres, ok_bind, ok_bind, hix, ok_bind, ok_bind, decide_eq_true (show pos ≤ x.s by omega), require_true, ok_bind, ok_bind,
    hzh.slice (by omega), ok_bind, ok_bind, decide_eq_true (show x.b + x.s + 1 ≤ m.data.length by omega), require_true, ok_bind, ok_bind, pure_ok]
  dsimp only
  have htl : ((xs.drop pos).take (x.s - pos)).length = x.s - pos := by rw [List.length_take, List.length_drop]; omega
  have hbl : (blit m.data (x.b + pos + 1) ((xs.drop pos).take (x.s - pos))).length = m.data.length := blit_length _ _ _ (by omega)
  have hbg : (blit m.data (x.b + pos + 1) ((xs.drop pos).take (x.s - pos)))[x.b + (p + 1)]? = some u := by
    rw [blit_get _ _ _ (by omega), htl, if_pos (by omega), List.getElem?_take, if_pos (by omega), List.getElem?_drop,
      show pos + (x.b + (p + 1) - (x.b + pos + 1)) = p by omega, hu]
  unfold Map.readRef
  dsimp only
  rw [hbl, hbg, if_pos hcap]
  rfl

/-- Bucket 0 holds 1, 2, 3 and has room for a fourth element, bucket 1 holds 7. -/
def aliasDemo : List (Op Nat) := [.index 1, .push 0 1, .push 0 2, .push 0 3, .push 1 7]

theorem aliasDemo_allowed : Allowed 32 4 aliasDemo start := by
  simp [aliasDemo, Allowed, start, Op.Pre, Op.spec, Op.throws, Op.needs, Op.lists, Op.lost, bucket, ensure]

/-- The state after it. -/
def aliasMap : Map Nat := ⟨[⟨0, 3, 4⟩, ⟨4, 1, 1⟩], [1, 2, 3, 0, 7], [[], [], [], [], []], 4⟩

theorem aliasDemo_run : run 32 4 0 aliasDemo (Map.empty 4) = .ok (aliasMap, [false, false, false, false, false]) := by decide +kernel

/-- `m[1].push_back(m[0][2])` with room for 8 cells: the bucket is the last one and grows in place. -/
example : aliasMap.pushBackRef 32 4 0 8 1 0 2 = aliasMap.pushBack 32 4 0 1 3 :=
  C128_push_back_partial (Or.inl rfl) (by decide) 0 aliasDemo_allowed (by decide +kernel) aliasDemo_run (i := 1) (j := 0) (p := 2) (v := 3) (xs := [7]) (zs := [1, 2, 3])
    (by decide +kernel) (by decide +kernel) rfl
    (fun m' h => by
      have e : aliasMap.pushBack 32 4 0 1 3 = .ok ⟨[⟨0, 3, 4⟩, ⟨4, 2, 2⟩], [1, 2, 3, 0, 7, 3], [[], [], [], [], []], 5⟩ := by decide +kernel
      rw [e] at h
      cases h
      decide)

/-- `m[0].insert(begin() + 1, m[1][0])`. -/
example : aliasMap.insertRef 32 4 0 5 0 1 1 0 = .ok ⟨[⟨0, 4, 4⟩, ⟨4, 1, 1⟩], [1, 7, 2, 3, 7], [[], [], [], [], []], 5⟩ := by
  have e : aliasMap.insert 32 4 0 0 1 7 = .ok ⟨[⟨0, 4, 4⟩, ⟨4, 1, 1⟩], [1, 7, 2, 3, 7], [[], [], [], [], []], 5⟩ := by decide +kernel
  rw [← e]
  exact C128_insert_partial (Or.inl rfl) (by decide) 0 aliasDemo_allowed (by decide +kernel) aliasDemo_run (xs := [1, 2, 3]) (zs := [7])
    (by decide +kernel) (by decide) (by decide +kernel) rfl (Or.inl (by decide)) (fun m' h => by rw [e] at h; cases h; decide)

/-- The same `push_back` with room for 5 cells only. -/
example : aliasMap.pushBackRef 32 4 0 5 1 0 2 = .error .ub :=
  (C128_moved_violated (Or.inl rfl) (by decide) 0 aliasDemo_allowed (by decide +kernel) aliasDemo_run (i := 1) (pos := 0) (j := 0) (p := 2) (v := 3) (xs := [7])
    (zs := [1, 2, 3]) (by decide +kernel) (by decide) (by decide +kernel) rfl 5).1 ⟨[⟨0, 3, 4⟩, ⟨4, 2, 2⟩], [1, 2, 3, 0, 7, 3], [[], [], [], [], []], 5⟩ (by decide +kernel) (by decide)

/-- `m[0].insert(m[0].begin(), m[0][2])` inserts 2 instead of 3. -/
example : aliasMap.insertRef 32 4 0 8 0 0 0 2 = aliasMap.insert 32 4 0 0 0 2 :=
  C128_shifted_violated (Or.inl rfl) (by decide) 0 aliasDemo_allowed (by decide +kernel) aliasDemo_run (p := 1) (v := 3) (xs := [1, 2, 3]) (x := ⟨0, 3, 4⟩)
    (by decide +kernel) rfl (by decide) (by decide) rfl rfl (by decide)

end Cista.MM

import Verif.Paged.Props

set_option linter.unusedSimpArgs false

/-!
# C142 — what `paged_vecvec::emplace_back` and `insert` accept

Source: `/repo/include/cista/containers/paged_vecvec.h`:310-342, `/repo/include/cista/containers/paged.h`:117-123.

* `v.emplace_back(v[i])` and `v.insert(k, v[i])`: a bucket refers to the container and its number; `size()` is read before, `begin()` and `end()` are
  computed after `create_page`, which may have moved the elements.
* `v.emplace_back(c)` for any container `c` whose elements can be converted to the element type (`std::is_convertible_v`): `paged.h`
  copies `distance * sizeof(value_type)` bytes from the address of the first element.
-/
namespace Cista.Paged

variable {c : Cfg}

/-- paged_vecvec.h:310-318 `v.emplace_back(v[i])`; the copy is the `memcpy` of paged.h:117-123, which must not overlap. -/
def PV.emplaceBackOwn (c : Cfg) (v : PV) (i : Nat) : Res PV := do
  let s ← v.page i
  let (q, p) ← v.paged.create c s.size
  let p ← p.copy c q s
  return ⟨p, v.idx ++ [q]⟩

/-- paged_vecvec.h:334-342 `v.insert(k, v[i])`. -/
def PV.insertOwn (c : Cfg) (v : PV) (k i : Nat) : Res PV := do
  let s ← v.page i
  let (q, p) ← v.paged.create c s.size
  let p ← p.copy c q s
  require (k ≤ v.idx.length)
  return ⟨p, v.idx.insertIdx k q⟩

/-- paged_vecvec.h:310-318 `v.emplace_back(c)` for a container `c` with `n` elements; `mem` are the bytes from the first element to the end of
the array (or single object) it lies in: reading more is undefined. -/
def PV.emplaceBackMem (c : Cfg) (v : PV) (n : Nat) (mem : List Byte) : Res PV := do
  let (q, p) ← v.paged.create c (n % 2 ^ 16)
  if n = 0 then return ⟨p, v.idx ++ [q]⟩ else do
    let bs ← load mem 0 (n * c.E)
    let p ← p.copyIn c q bs
    return ⟨p, v.idx ++ [q]⟩

/-! ## Own buckets -/

theorem copyOwn (ok : c.Ok) {v : PV} {L : List (List (List Byte))} (h : VRel c v L) {i : Nat} {xs : List (List Byte)}
    (hi : L[i]? = some xs) (hn : xs.length ≤ 2 ^ c.M) (hb : v.paged.size c + 2 * max (2 ^ c.m) xs.length ≤ c.sentinel) :
    ∃ s q p1, v.page i = .ok s ∧ s.size = xs.length ∧ v.paged.create c xs.length = .ok (q, p1) ∧ p1.copy c q s = p1.copyIn c q xs.flatten := by
  obtain ⟨fl, hI⟩ := h.inv
  obtain ⟨s, hs, hp, hB⟩ := h.page hi
  have hm := List.mem_of_getElem? hs
  have hM : 2 ^ c.M ≤ 2 ^ 15 := Nat.pow_le_pow_right (by omega) ok.M15
  have hcl := newCap_le ok (n := xs.length) (by omega)
  obtain ⟨q, p1, fl1, e, hqs, hc, hle, hI1, hsz, hl, hfr⟩ := create_ok ok hI hn (by omega)
  refine ⟨s, q, p1, hp, hB.1, e, ?_⟩
  have hB1 : BOk c p1.data s xs := hB.frame (hI.pages s hm) fun k _ hk => hfr k (by have := hI.inrange hm; omega)
  have hin1 := hI1.inrange (q := s) (by simp [hm])
  have hct := hB1.contents (p := p1) (hI.pages s hm) hin1
  have hfl := flatten_len hB.2.1
  unfold Paged.contents at hct
  unfold Paged.copy Paged.copyIn
  have hnn : s.size * c.E = xs.flatten.length := by rw [hB.1, hfl]
  dsimp only
  by_cases h0 : xs.flatten.length = 0
  · rw [if_pos (by omega), if_pos h0]
  · rw [if_neg (by omega), if_neg h0, hct, ok_bind]
    have hd := hI1.disj_of hm
    have hov : (decide (s.start * c.E + s.size * c.E ≤ q.start * c.E) || decide (q.start * c.E + s.size * c.E ≤ s.start * c.E)) = true := by
      have h1 : s.size * c.E ≤ s.cap * c.E := mul_le (hI.pages s hm).1
      have h2 : s.size * c.E ≤ q.cap * c.E := mul_le (by rw [hB.1]; exact hle)
      rw [Bool.or_eq_true, decide_eq_true_eq, decide_eq_true_eq]
      rcases hd with hd | hd <;>
        (have := Nat.mul_le_mul_right c.E hd; simp only [Page.blk, Nat.add_mul] at this; omega)
    rw [hov, require_true, ok_bind]

/-- Calls; `append i` is `v.emplace_back(v[i])`, `insert k i` is `v.insert(k, v[i])`. -/
inductive OOp where
  | plain (op : VOp)
  | append (i : Nat)
  | insert (k i : Nat)

def OOp.exec (c : Cfg) (v : PV) : OOp → Res PV
  | .plain op => op.exec c v
  | .append i => v.emplaceBackOwn c i
  | .insert k i => v.insertOwn c k i

/-- The call with a copy of the bucket. -/
def OOp.copied (L : List (List (List Byte))) : OOp → VOp
  | .plain op => op
  | .append i => .emplaceBack (L.getD i [])
  | .insert k i => .insert k (L.getD i [])

/-- The bucket and the position exist. -/
def OOp.Pre (c : Cfg) (L : List (List (List Byte))) : OOp → Prop
  | .plain op => op.Pre c L
  | .append i => i < L.length
  | .insert k i => i < L.length ∧ k ≤ L.length

def orun (c : Cfg) : PV → List OOp → Res PV
  | v, [] => .ok v
  | v, op :: ops => do
    let v ← op.exec c v
    orun c v ops

/-- On a list of lists. -/
def ospec : List (List (List Byte)) → List OOp → List (List (List Byte))
  | L, [] => L
  | L, op :: ops => ospec ((op.copied L).spec L) ops

def OAllowed (c : Cfg) : List (List (List Byte)) → List OOp → Prop
  | _, [] => True
  | L, op :: ops => op.Pre c L ∧ OAllowed c ((op.copied L).spec L) ops

/-- Storage needed at most. -/
def ocost (c : Cfg) : List (List (List Byte)) → List OOp → Nat
  | _, [] => 0
  | L, op :: ops => (op.copied L).cost c L + ocost c ((op.copied L).spec L) ops

theorem VRel.limit {v : PV} {L : List (List (List Byte))} (h : VRel c v L) {i : Nat} {xs : List (List Byte)} (hi : L[i]? = some xs) :
    (∀ x ∈ xs, x.length = c.E) ∧ xs.length ≤ 2 ^ c.M := by
  obtain ⟨fl, hI⟩ := h.inv
  obtain ⟨s, hs, hp, hB⟩ := h.page hi
  refine ⟨hB.2.1, ?_⟩
  obtain ⟨h1, h2⟩ := hI.pages s (List.mem_of_getElem? hs)
  have h3 := hB.1
  have h0 := Nat.two_pow_pos c.M
  rcases h2 with h2 | ⟨k, h2, h4, h5⟩
  · omega
  · have := Nat.pow_le_pow_right (n := 2) (by omega) h4
    omega

theorem getD_some {L : List (List (List Byte))} {i : Nat} (hi : i < L.length) : L[i]? = some (L.getD i []) := by
  rw [List.getD_eq_getElem?_getD, List.getElem?_eq_getElem hi]; rfl

theorem oexec_eq (ok : c.Ok) {v : PV} {L : List (List (List Byte))} (h : VRel c v L) {op : OOp} (hp : op.Pre c L)
    (hb : v.paged.size c + (op.copied L).cost c L ≤ c.sentinel) : op.exec c v = (op.copied L).exec c v ∧ (op.copied L).Pre c L := by
  have hM : 2 ^ c.M ≤ 2 ^ 15 := Nat.pow_le_pow_right (by omega) ok.M15
  cases op with
  | plain op => exact ⟨rfl, hp⟩
  | append i =>
    have hi := getD_some hp
    obtain ⟨l1, l2⟩ := h.limit hi
    obtain ⟨s, q, p1, e1, e2, e3, e4⟩ := copyOwn ok h hi l2 hb
    refine ⟨?_, l1, l2⟩
    have hmod : (L.getD i []).length % 2 ^ 16 = (L.getD i []).length := Nat.mod_eq_of_lt (Nat.lt_of_le_of_lt (Nat.le_trans l2 hM) (by decide))
    show v.emplaceBackOwn c i = v.emplaceBack c (L.getD i [])
    unfold PV.emplaceBackOwn PV.emplaceBack
    rw [e1, ok_bind, e2, hmod, e3, ok_bind, ok_bind]
    dsimp only
    rw [e4]
  | insert k i =>
    have hi := getD_some hp.1
    obtain ⟨l1, l2⟩ := h.limit hi
    obtain ⟨s, q, p1, e1, e2, e3, e4⟩ := copyOwn ok h hi l2 hb
    refine ⟨?_, hp.2, l1, l2⟩
    have hmod : (L.getD i []).length % 2 ^ 16 = (L.getD i []).length := Nat.mod_eq_of_lt (Nat.lt_of_le_of_lt (Nat.le_trans l2 hM) (by decide))
    show v.insertOwn c k i = v.insert c k (L.getD i [])
    unfold PV.insertOwn PV.insert
    rw [e1, ok_bind, e2, hmod, e3, ok_bind, ok_bind]
    dsimp only
    rw [e4]

theorem orun_ok (ok : c.Ok) : ∀ (ops : List OOp) {v : PV} {L : List (List (List Byte))}, VRel c v L →
    OAllowed c L ops → v.paged.size c + ocost c L ops ≤ c.sentinel →
    ∃ v', orun c v ops = .ok v' ∧ VRel c v' (ospec L ops) ∧ v'.paged.size c ≤ v.paged.size c + ocost c L ops
  | [], v, L, h, _, _ => ⟨v, rfl, h, Nat.le_refl _⟩
  | op :: ops, v, L, h, ha, hb => by
    simp only [ocost] at hb
    obtain ⟨h0, hp⟩ := oexec_eq ok h ha.1 (by omega)
    obtain ⟨v1, e1, h1, hs1⟩ := vexec_ok ok h hp (by omega)
    obtain ⟨v2, e2, h2, hs2⟩ := orun_ok ok ops h1 ha.2 (by omega)
    exact ⟨v2, by simp only [orun, h0, e1, ok_bind, e2], h2, by simp only [ocost]; omega⟩

/-- **C142** Histories in which buckets of the container itself are appended and inserted (together with all other operations) are observed like on a
list of lists: the new bucket is a copy, and the bucket it was copied from and all others stay. -/
theorem C142_own_buckets (ok : c.Ok) (ops : List OOp) (ha : OAllowed c [] ops) (hb : ocost c [] ops ≤ c.sentinel) :
    ∃ v, orun c (PV.empty c) ops = .ok v ∧ VGood c v (ospec [] ops) := by
  obtain ⟨v, e, h, _⟩ := orun_ok ok ops (vrel_empty c) ha (by simpa [Paged.size, Paged.empty, PV.empty] using hb)
  exact ⟨v, e, h.good⟩

/-! ## Other containers -/

/-- **C142** (partial): a container with elements of the same type in one array is appended as expected, whatever follows its elements in the
array.  Missing: other containers that are accepted (below). -/
theorem C142_same_type_partial (v : PV) (ys : List (List Byte)) (hE : ∀ y ∈ ys, y.length = c.E) (rest : List Byte) :
    v.emplaceBackMem c ys.length (ys.flatten ++ rest) = v.emplaceBack c ys := by
  have hfl := flatten_len hE
  unfold PV.emplaceBackMem PV.emplaceBack
  cases hq : v.paged.create c (ys.length % 2 ^ 16) with
  | error e => rfl
  | ok r =>
    obtain ⟨q, p⟩ := r
    simp only [ok_bind]
    by_cases h0 : ys.length = 0
    · rw [if_pos h0]
      rw [List.length_eq_zero_iff.1 h0]
      rfl
    · rw [if_neg h0]
      have hl : load (ys.flatten ++ rest) 0 (ys.length * c.E) = .ok ys.flatten := by
        unfold load
        have hd : decide (0 + ys.length * c.E ≤ (ys.flatten ++ rest).length) = true := decide_eq_true (by rw [List.length_append]; omega)
        rw [hd, require_true, ok_bind, pure_ok, List.drop_zero, ← hfl, List.take_left]
      rw [hl, ok_bind]

/-- **C142** (violated): if the array (or the single object, for a list or a set) that the first element lies in is smaller than the
elements would be after conversion, bytes behind it are read. -/
theorem C142_short_source_violated (ok : c.Ok) (ops : List OOp) (ha : OAllowed c [] ops) {n : Nat} (hn : n ≤ 2 ^ c.M) (h0 : n ≠ 0)
    (hb : ocost c [] ops + 2 * max (2 ^ c.m) n ≤ c.sentinel) {v : PV} (hv : orun c (PV.empty c) ops = .ok v) {mem : List Byte}
    (hm : mem.length < n * c.E) : v.emplaceBackMem c n mem = .error .ub := by
  have hz : (PV.empty c).paged.size c = 0 := by simp [Paged.size, Paged.empty, PV.empty]
  obtain ⟨v', e, h, hs⟩ := orun_ok ok ops (vrel_empty c) ha (by omega)
  rw [hv] at e
  injection e with e
  subst e
  obtain ⟨fl, hI⟩ := h.inv
  have hM : 2 ^ c.M ≤ 2 ^ 15 := Nat.pow_le_pow_right (by omega) ok.M15
  have hcl := newCap_le ok (n := n) (by omega)
  obtain ⟨q, p1, _, e, _⟩ := create_ok ok hI hn (by omega)
  unfold PV.emplaceBackMem
  rw [Nat.mod_eq_of_lt (by omega), e]
  simp only [ok_bind]
  rw [if_neg h0]
  unfold load
  have hd : decide (0 + n * c.E ≤ mem.length) = false := decide_eq_false (by omega)
  rw [hd]
  rfl

theorem elems_spec {E : Nat} : ∀ (n : Nat) (mem : List Byte), n * E ≤ mem.length →
    (∀ y ∈ elems E n mem, y.length = E) ∧ (elems E n mem).length = n ∧ (elems E n mem).flatten = mem.take (n * E) := by
  intro n
  induction n with
  | zero => intro mem _; simp [elems]
  | succ n ih =>
    intro mem h
    rw [Nat.succ_mul] at h
    obtain ⟨i1, i2, i3⟩ := ih (mem.drop E) (by rw [List.length_drop]; omega)
    refine ⟨?_, by simp [elems, i2], ?_⟩
    · intro y hy
      simp only [elems, List.mem_cons] at hy
      rcases hy with rfl | hy
      · rw [List.length_take]; omega
      · exact i1 y hy
    · simp only [elems, List.flatten_cons, i3, Nat.succ_mul]
      rw [Nat.add_comm, List.take_add]

/-- **C142** (violated): if the source is large enough, its bytes are stored as they are, cut into elements of the own size, and nothing is converted:
whatever `conv` does to an element, the new bucket is the converted elements only if they happen to be these bytes. -/
theorem C142_reinterpreted_violated (ok : c.Ok) (ops : List OOp) (ha : OAllowed c [] ops) {ys : List (List Byte)} (hn : ys.length ≤ 2 ^ c.M)
    (hb : ocost c [] ops + 2 * max (2 ^ c.m) ys.length ≤ c.sentinel) {v : PV} (hv : orun c (PV.empty c) ops = .ok v)
    (hm : ys.length * c.E ≤ ys.flatten.length) (conv : List Byte → List Byte) (hc : ys.map conv ≠ elems c.E ys.length ys.flatten) :
    ∃ v', v.emplaceBackMem c ys.length ys.flatten = .ok v' ∧ v'.bucket c (ospec [] ops).length = .ok (elems c.E ys.length ys.flatten) ∧
      v'.bucket c (ospec [] ops).length ≠ .ok (ys.map conv) := by
  have hz : (PV.empty c).paged.size c = 0 := by simp [Paged.size, Paged.empty, PV.empty]
  obtain ⟨v', e, h, hs⟩ := orun_ok ok ops (vrel_empty c) ha (by omega)
  rw [hv] at e
  injection e with e
  subst e
  obtain ⟨k1, k2, k3⟩ := elems_spec ys.length ys.flatten hm
  have e := C142_same_type_partial v (elems c.E ys.length ys.flatten) k1 (ys.flatten.drop (ys.length * c.E))
  rw [k2, k3, List.take_append_drop] at e
  obtain ⟨v', e', h', _⟩ := emplaceBack_ok ok h k1 (by omega) (by rw [k2]; omega)
  have hbk := h'.bucket (i := (ospec [] ops).length) (xs := elems c.E ys.length ys.flatten) (by simp)
  refine ⟨v', by rw [e, e'], hbk, ?_⟩
  rw [hbk]
  intro h
  injection h with h
  exact hc h.symm

/-- A container of four-byte integers to which the eight-byte integers 1 and 2 are appended: 1 and 0. -/
example : ∃ v', (PV.empty cfg4).emplaceBackMem cfg4 2 [1, 0, 0, 0, 0, 0, 0, 0, 2, 0, 0, 0, 0, 0, 0, 0] = .ok v' ∧
    v'.bucket cfg4 0 = .ok [[1, 0, 0, 0], [0, 0, 0, 0]] ∧ v'.bucket cfg4 0 ≠ .ok [[1, 0, 0, 0], [2, 0, 0, 0]] :=
  C142_reinterpreted_violated cfg4_ok [] trivial (ys := [[1, 0, 0, 0, 0, 0, 0, 0], [2, 0, 0, 0, 0, 0, 0, 0]]) (by decide) (by decide +kernel) rfl
    (by decide) (fun y => y.take 4) (by decide)

/-- The same type, in an array with room for another element. -/
example : (PV.empty cfg4).emplaceBackMem cfg4 2 [1, 0, 0, 0, 2, 0, 0, 0, 7, 7, 7, 7] = (PV.empty cfg4).emplaceBack cfg4 [[1, 0, 0, 0], [2, 0, 0, 0]] :=
  C142_same_type_partial _ [[1, 0, 0, 0], [2, 0, 0, 0]] (by decide) [7, 7, 7, 7]

/-- Two-byte integers in an array of just that size; and the first of several four-byte integers of a list. -/
example : (PV.empty cfg4).emplaceBackMem cfg4 2 [1, 0, 2, 0] = .error .ub :=
  C142_short_source_violated cfg4_ok [] trivial (by decide) (by decide) (by decide +kernel) rfl (by decide)

/-- Bucket 0 is appended, inserted in front, and grows afterwards; its copies do not. -/
def sampleO : List OOp :=
  [.plain (.emplaceBack [[1, 0, 0, 0], [2, 0, 0, 0]]), .append 0, .insert 0 1, .plain (.push 0 [3, 0, 0, 0]), .append 0]

example : ∃ v, orun cfg4 (PV.empty cfg4) sampleO = .ok v ∧
    VGood cfg4 v [[[1, 0, 0, 0], [2, 0, 0, 0], [3, 0, 0, 0]], [[1, 0, 0, 0], [2, 0, 0, 0]], [[1, 0, 0, 0], [2, 0, 0, 0]],
      [[1, 0, 0, 0], [2, 0, 0, 0], [3, 0, 0, 0]]] :=
  C142_own_buckets cfg4_ok sampleO
    ⟨⟨by decide, by decide +kernel⟩, Nat.zero_lt_succ 0, ⟨Nat.lt_succ_self 1, Nat.zero_le _⟩, ⟨_, rfl, by decide +kernel, rfl⟩, Nat.zero_lt_succ 2, trivial⟩ (by decide +kernel)

end Cista.Paged

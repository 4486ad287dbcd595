import Verif.Io.Target

/-!
# A mapped file on a system that fails

`cista::mmap` (include/cista/mmap.h, POSIX branch) and the growing of `basic_mmap_vec`, where `ftruncate`, `mmap` and `msync` may fail.  An access
outside of the mapping is `Err.ub`.  As in `Misc/MmapVec.lean`, a shared mapping shows the bytes of the file.
-/
set_option linter.unusedSimpArgs false

namespace Cista.MmapFail

open Cista.MmapVec (ftruncate np2 np2_ge)
open Cista.Ser (rd length_rd rd_get wr ftruncate_rd rd_over)

/-! ## Model -/

/-- Does the system call number `k` succeed? -/
abbrev Sys := Nat → Bool

/-- mmap.h:207-211: the bytes of the file, `prot_ != READ`, `size_`, `used_size_`, `addr_ != nullptr`; and the number of system calls so far. -/
structure M where
  file : List Byte
  rw_ : Bool
  size : Nat
  used : Nat
  addr : Bool
  k : Nat
  deriving DecidableEq

/-- mmap.h:31-38 for a file with these bytes (none, if opened with `protection::WRITE`); a failing `mmap` throws, there is no object then. -/
def M.opened (Y : Sys) (file : List Byte) (rw : Bool) : Option M :=
  if file.length = 0 then some ⟨file, rw, 0, 0, false, 0⟩
  else if Y 0 then some ⟨file, rw, file.length, file.length, true, 1⟩ else none

/-- mmap.h:196-205 `resize_map`, for writable mappings: unmap, `ftruncate`, map (zero bytes cannot be mapped).  `false`: an exception was thrown. -/
def M.resizeMap (Y : Sys) (m : M) (n : Nat) : M × Bool :=
  if Y m.k then
    if n ≠ 0 ∧ Y (m.k + 1) then ({ m with file := ftruncate m.file n, size := n, addr := true, k := m.k + 2 }, true)
    else ({ m with file := ftruncate m.file n, size := n, addr := false, k := m.k + 2 }, false)
  else ({ m with size := n, addr := false, k := m.k + 1 }, false)

/-- mmap.h:91-98 `resize`. -/
def M.resize (Y : Sys) (m : M) (n : Nat) : M × Bool :=
  if m.rw_ = false then (m, false)
  else if m.size < n then
    let r := m.resizeMap Y (np2 n)
    if r.2 then ({ r.1 with used := n }, true) else r
  else ({ m with used := n }, true)

/-- mmap.h:100-106 `reserve`. -/
def M.reserve (Y : Sys) (m : M) (n : Nat) : M × Bool :=
  if m.rw_ = false then (m, false)
  else if m.size < n then m.resizeMap Y (np2 n)
  else (m, true)

/-- mmap.h:79-89 `sync`. -/
def M.sync (Y : Sys) (m : M) : M × Bool :=
  if m.rw_ && m.addr then ({ m with k := m.k + 1 }, Y m.k) else (m, true)

/-- mmap.h:123-126 reading `operator[]`. -/
def M.get (m : M) (i : Nat) : Res Byte :=
  if m.addr ∧ i < m.size then .ok (m.file.getD i 0) else .error .ub

/-- mmap.h:123 writing through `operator[]`; a read-only mapping cannot be written to. -/
def M.put (m : M) (i : Nat) (x : Byte) : Res M :=
  if m.addr ∧ m.rw_ ∧ i < m.size then .ok { m with file := m.file.set i x } else .error .ub

/-- mmap.h:40-49 the destructor, which does not throw: an exception inside ends the program (`none`).  The file that is left. -/
def M.destroy (Y : Sys) (m : M) : Option (List Byte) :=
  if m.addr then
    let s := m.sync Y
    if s.2 = false then none
    else if m.used = m.file.length ∨ m.rw_ = false then some m.file
    else if Y s.1.k then some (ftruncate m.file m.used) else none
  else some m.file

inductive Call where
  | resize (n : Nat)
  | reserve (n : Nat)
  | sync
  | get (i : Nat)
  | put (i : Nat) (x : Byte)

/-- One call: the state and the byte read (0 for the other calls); no value: an exception. -/
def M.call (Y : Sys) (m : M) : Call → Res (M × Option Byte)
  | .resize n => .ok ((m.resize Y n).1, if (m.resize Y n).2 then some 0 else none)
  | .reserve n => .ok ((m.reserve Y n).1, if (m.reserve Y n).2 then some 0 else none)
  | .sync => .ok ((m.sync Y).1, if (m.sync Y).2 then some 0 else none)
  | .get i => do
    let b ← m.get i
    .ok (m, some b)
  | .put i x => do
    let m ← m.put i x
    .ok (m, some 0)

/-- A history that ends with the first exception: the state, the answers, was there none? -/
def M.run (Y : Sys) : M → List Call → Res (M × List Byte × Bool)
  | m, [] => .ok (m, [], true)
  | m, c :: cs => do
    let r ← m.call Y c
    match r.2 with
    | none => .ok (r.1, [], false)
    | some b => do
      let q ← M.run Y r.1 cs
      .ok (q.1, b :: q.2.1, q.2.2)

/-! ## Specification -/

/-- A file without end, of which a number of bytes is in use. -/
structure S where
  b : Nat → Byte
  used : Nat

/-- A call and its answer; undefined outside of the bytes in use. -/
def S.call (s : S) : Call → Option (S × Byte)
  | .resize n => if n ≤ 2 ^ 63 then some ({ s with used := n }, 0) else none
  | .reserve n => if n ≤ 2 ^ 63 then some (s, 0) else none
  | .sync => some (s, 0)
  | .get i => if i < s.used then some (s, s.b i) else none
  | .put i x => if i < s.used then some ({ s with b := fun j => if j = i then x else s.b j }, 0) else none

def S.run : S → List Call → Option (S × List Byte)
  | s, [] => some (s, [])
  | s, c :: cs => do
    let r ← s.call c
    let q ← S.run r.1 cs
    some (q.1, r.2 :: q.2)

/-- The bytes in use. -/
def S.bytes (s : S) : List Byte := (List.range s.used).map s.b

/-- The bytes of an existing file, all in use. -/
def S.ofFile (f : List Byte) : S := ⟨fun i => f.getD i 0, f.length⟩

/-! ## Proofs -/

/-- States that belong together. -/
structure Is (m : M) (s : S) : Prop where
  used : m.used = s.used
  le : s.used ≤ m.size
  file : m.file = rd s.b 0 m.size
  zero : ∀ x, m.size ≤ x → s.b x = 0#8
  addr : 0 < m.size → m.addr = true
  off : m.addr = true → 0 < m.size
  rw_ : m.rw_ = true

theorem rd_eq_map (b : Nat → Byte) (n : Nat) : rd b 0 n = (List.range n).map b := by
  apply List.ext_getElem?
  intro i
  rw [rd_get, List.getElem?_map]
  by_cases h : i < n
  · rw [if_pos h, List.getElem?_range h]
    rfl
  · rw [if_neg h, List.getElem?_eq_none (by simp; omega)]
    rfl

theorem resizeMap_spec (Y : Sys) {m : M} {s : S} (h : Is m s) {n : Nat} (hn : m.size ≤ n) (h0 : n ≠ 0) :
    (m.resizeMap Y n).1.used = m.used ∧ (m.resizeMap Y n).1.file.take m.size = m.file ∧
    ((m.resizeMap Y n).2 = false → ∃ k, Y k = false) ∧ ((m.resizeMap Y n).2 = true → (m.resizeMap Y n).1.size = n ∧ Is (m.resizeMap Y n).1 s) := by
  have hf : ftruncate m.file n = rd s.b 0 n := by rw [h.file]; exact ftruncate_rd h.zero (Nat.le_refl _) hn
  have ht : (rd s.b 0 n).take m.size = m.file := by
    rw [h.file, rd_eq_map, rd_eq_map, ← List.map_take, List.take_range, Nat.min_eq_left hn]
  unfold M.resizeMap
  cases h1 : Y m.k with
  | false =>
    rw [if_neg (by decide)]
    refine ⟨rfl, ?_, fun _ => ⟨_, h1⟩, nofun⟩
    show m.file.take m.size = m.file
    rw [List.take_of_length_le (by rw [h.file, length_rd]; exact Nat.le_refl _)]
  | true =>
    rw [if_pos rfl]
    by_cases h2 : n ≠ 0 ∧ Y (m.k + 1) = true
    · rw [if_pos h2]
      refine ⟨rfl, by show (ftruncate m.file n).take _ = _; rw [hf]; exact ht, nofun, fun _ => ⟨rfl, ?_⟩⟩
      exact ⟨h.used, Nat.le_trans h.le hn, hf, fun x hx => h.zero x (Nat.le_trans hn hx), fun _ => rfl, fun _ => Nat.pos_of_ne_zero h0, h.rw_⟩
    · rw [if_neg h2]
      refine ⟨rfl, by show (ftruncate m.file n).take _ = _; rw [hf]; exact ht, fun _ => ⟨m.k + 1, ?_⟩, nofun⟩
      cases h3 : Y (m.k + 1) with
      | false => rfl
      | true => exact absurd ⟨h0, h3⟩ h2

theorem resize_grow (Y : Sys) {m : M} (h : m.rw_ = true) {n : Nat} (hz : m.size < n) : m.resize Y n =
    if (m.resizeMap Y (np2 n)).2 then ({ (m.resizeMap Y (np2 n)).1 with used := n }, true) else m.resizeMap Y (np2 n) := by
  unfold M.resize
  rw [if_neg (by rw [h]; decide), if_pos hz]

theorem resize_fit (Y : Sys) {m : M} (h : m.rw_ = true) {n : Nat} (hz : ¬ m.size < n) : m.resize Y n = ({ m with used := n }, true) := by
  unfold M.resize
  rw [if_neg (by rw [h]; decide), if_neg hz]

/-- What every call does. -/
theorem call_spec (Y : Sys) {m : M} {s : S} (h : Is m s) (c : Call) {s' : S} {b : Byte} (hs : s.call c = some (s', b)) :
    ∃ m' r, m.call Y c = .ok (m', r) ∧
      ((r = none ∧ (∃ k, Y k = false) ∧ m'.used = m.used ∧ m'.file.take m.size = m.file) ∨ (r = some b ∧ Is m' s')) := by
  cases c with
  | resize n =>
    have hs : (if n ≤ 2 ^ 63 then some ({ s with used := n }, (0 : Byte)) else none) = some (s', b) := hs
    by_cases hn : n ≤ 2 ^ 63
    · rw [if_pos hn] at hs
      cases hs
      by_cases hz : m.size < n
      · have hge := np2_ge (n := n) (by omega) hn
        obtain ⟨g1, g2, g3, g4⟩ := resizeMap_spec Y h (n := np2 n) (by omega) (by omega)
        have e := resize_grow Y h.rw_ hz
        cases hr : (m.resizeMap Y (np2 n)).2 with
        | false =>
          rw [hr, if_neg (by decide)] at e
          refine ⟨_, none, ?_, .inl ⟨rfl, g3 hr, g1, g2⟩⟩
          show Except.ok ((m.resize Y n).1, if (m.resize Y n).2 then some 0 else none) = _
          rw [e, hr]
          rfl
        | true =>
          rw [hr, if_pos rfl] at e
          obtain ⟨e1, g⟩ := g4 hr
          refine ⟨{ (m.resizeMap Y (np2 n)).1 with used := n }, some 0, ?_, .inr ⟨rfl, rfl, ?_, g.file, g.zero, g.addr, g.off, g.rw_⟩⟩
          · show Except.ok ((m.resize Y n).1, if (m.resize Y n).2 then some 0 else none) = _
            rw [e]
            rfl
          · show n ≤ (m.resizeMap Y (np2 n)).1.size
            omega
      · refine ⟨{ m with used := n }, some 0, ?_, .inr ⟨rfl, rfl, Nat.not_lt.1 hz, h.file, h.zero, h.addr, h.off, h.rw_⟩⟩
        show Except.ok ((m.resize Y n).1, if (m.resize Y n).2 then some 0 else none) = _
        rw [resize_fit Y h.rw_ hz]
        rfl
    · rw [if_neg hn] at hs; cases hs
  | reserve n =>
    have hs : (if n ≤ 2 ^ 63 then some (s, (0 : Byte)) else none) = some (s', b) := hs
    by_cases hn : n ≤ 2 ^ 63
    · rw [if_pos hn] at hs
      cases hs
      have e : m.reserve Y n = if m.size < n then m.resizeMap Y (np2 n) else (m, true) := by
        unfold M.reserve
        rw [if_neg (by rw [h.rw_]; decide)]
      by_cases hz : m.size < n
      · have hge := np2_ge (n := n) (by omega) hn
        obtain ⟨g1, g2, g3, g4⟩ := resizeMap_spec Y h (n := np2 n) (by omega) (by omega)
        rw [if_pos hz] at e
        refine ⟨(m.resizeMap Y (np2 n)).1, if (m.resizeMap Y (np2 n)).2 then some 0 else none, ?_, ?_⟩
        · show Except.ok ((m.reserve Y n).1, if (m.reserve Y n).2 then some 0 else none) = _
          rw [e]
        · cases hr : (m.resizeMap Y (np2 n)).2 with
          | false => exact .inl ⟨rfl, g3 hr, g1, g2⟩
          | true => exact .inr ⟨rfl, (g4 hr).2⟩
      · rw [if_neg hz] at e
        refine ⟨m, some 0, ?_, .inr ⟨rfl, h⟩⟩
        show Except.ok ((m.reserve Y n).1, if (m.reserve Y n).2 then some 0 else none) = _
        rw [e]
        rfl
    · rw [if_neg hn] at hs; cases hs
  | sync =>
    cases hs
    refine ⟨_, _, rfl, ?_⟩
    have hl : m.file.take m.size = m.file := List.take_of_length_le (by rw [h.file, length_rd]; exact Nat.le_refl _)
    unfold M.sync
    by_cases hc : (m.rw_ && m.addr) = true
    · rw [if_pos hc]
      cases hy : Y m.k with
      | false => exact .inl ⟨rfl, ⟨_, hy⟩, rfl, hl⟩
      | true => exact .inr ⟨rfl, h.used, h.le, h.file, h.zero, h.addr, h.off, h.rw_⟩
    · rw [if_neg hc]
      exact .inr ⟨rfl, h⟩
  | get i =>
    have hs : (if i < s.used then some (s, s.b i) else none) = some (s', b) := hs
    by_cases hi : i < s.used
    · rw [if_pos hi] at hs
      cases hs
      have hz : i < m.size := Nat.lt_of_lt_of_le hi h.le
      refine ⟨m, some (s.b i), ?_, .inr ⟨rfl, h⟩⟩
      show (do let b ← m.get i; .ok (m, some b)) = _
      unfold M.get
      rw [if_pos ⟨h.addr (by omega), hz⟩, ok_bind, h.file, List.getD_eq_getElem?_getD, rd_get, if_pos hz]
      rfl
    · rw [if_neg hi] at hs; cases hs
  | put i x =>
    have hs : (if i < s.used then some ({ s with b := fun j => if j = i then x else s.b j }, (0 : Byte)) else none) = some (s', b) := hs
    by_cases hi : i < s.used
    · rw [if_pos hi] at hs
      cases hs
      have hz : i < m.size := Nat.lt_of_lt_of_le hi h.le
      refine ⟨{ m with file := m.file.set i x }, some 0, ?_, .inr ⟨rfl, h.used, h.le, ?_, fun j hj => ?_, h.addr, h.off, h.rw_⟩⟩
      · have e : m.put i x = .ok { m with file := m.file.set i x } := by
          unfold M.put
          rw [if_pos ⟨h.addr (by omega), h.rw_, hz⟩]
        unfold M.call
        dsimp only
        rw [e, ok_bind]
      · show m.file.set i x = rd _ 0 m.size
        rw [h.file]
        apply List.ext_getElem?
        intro j
        rw [List.getElem?_set, rd_get, rd_get, length_rd]
        by_cases hj : i = j
        · subst hj
          rw [if_pos rfl, if_pos hz, if_pos hz]
          exact congrArg some (if_pos rfl).symm
        · rw [if_neg hj]
          dsimp only
          rw [if_neg (Ne.symm hj)]
      · show (if j = i then x else s.b j) = 0#8
        have hj : m.size ≤ j := hj
        rw [if_neg (by omega)]
        exact h.zero j hj
    · rw [if_neg hi] at hs; cases hs

theorem run_spec (Y : Sys) : ∀ (cs : List Call) {m : M} {s s' : S} {bs : List Byte}, Is m s → s.run cs = some (s', bs) →
    ∃ m' as ok, m.run Y cs = .ok (m', as, ok) ∧ as = bs.take as.length ∧ (ok = false → ∃ k, Y k = false) ∧ (ok = true → as = bs ∧ Is m' s')
  | [], m, s, s', bs, h, hs => by
    cases hs
    exact ⟨m, [], true, rfl, rfl, nofun, fun _ => ⟨rfl, h⟩⟩
  | c :: cs, m, s, s', bs, h, hs => by
    unfold S.run at hs
    cases hc : s.call c with
    | none => rw [hc] at hs; cases hs
    | some q =>
      obtain ⟨s1, b⟩ := q
      rw [hc] at hs
      have hs : (S.run s1 cs).bind (fun q => some (q.1, b :: q.2)) = some (s', bs) := hs
      cases hr : S.run s1 cs with
      | none => rw [hr] at hs; cases hs
      | some q =>
        obtain ⟨s2, bs'⟩ := q
        rw [hr] at hs
        cases hs
        obtain ⟨m1, r, e, hd⟩ := call_spec Y h c hc
        unfold M.run
        rw [e, ok_bind]
        rcases hd with ⟨hn, hk, _⟩ | ⟨hn, hi⟩
        · subst hn
          exact ⟨m1, [], false, rfl, rfl, fun _ => hk, nofun⟩
        · subst hn
          obtain ⟨m', as, ok, e', g1, g2, g3⟩ := run_spec Y cs hi hr
          refine ⟨m', b :: as, ok, by dsimp only; rw [e', ok_bind], ?_, g2, fun ho => ⟨by rw [(g3 ho).1], (g3 ho).2⟩⟩
          rw [List.length_cons, List.take_succ_cons, ← g1]

theorem opened_is (Y : Sys) {f : List Byte} {m : M} (h : M.opened Y f true = some m) : Is m (.ofFile f) := by
  have hr : f = rd (fun i => f.getD i 0) 0 f.length := by
    apply List.ext_getElem?
    intro i
    rw [rd_get]
    by_cases hi : i < f.length
    · rw [if_pos hi, List.getElem?_eq_getElem hi, List.getD_eq_getElem?_getD, List.getElem?_eq_getElem hi]
      rfl
    · rw [if_neg hi, List.getElem?_eq_none (by omega)]
  have hz : ∀ x, f.length ≤ x → f.getD x 0 = 0#8 := by
    intro x hx
    rw [List.getD_eq_getElem?_getD, List.getElem?_eq_none hx]
    rfl
  unfold M.opened at h
  by_cases h0 : f.length = 0
  · rw [if_pos h0] at h
    cases h
    have : f = [] := List.length_eq_zero_iff.1 h0
    subst this
    exact ⟨rfl, Nat.le_refl _, rfl, hz, nofun, nofun, rfl⟩
  · rw [if_neg h0] at h
    by_cases hy : Y 0 = true
    · rw [if_pos hy] at h
      cases h
      exact ⟨rfl, Nat.le_refl _, hr, hz, fun _ => rfl, fun _ => Nat.pos_of_ne_zero h0, rfl⟩
    · rw [if_neg hy] at h
      cases h

theorem destroy_spec (Y : Sys) {m : M} {s : S} (h : Is m s) :
    (m.destroy Y = none → ∃ k, Y k = false) ∧ ∀ f, m.destroy Y = some f → f = s.bytes := by
  have hb : (rd s.b 0 m.size).take s.used = s.bytes := by
    rw [rd_eq_map, ← List.map_take, List.take_range, Nat.min_eq_left h.le]
    rfl
  have hl : m.file.length = m.size := by rw [h.file, length_rd]
  have htr : ftruncate m.file m.used = s.bytes := by
    unfold ftruncate
    rw [h.used, hl, show s.used - m.size = 0 by have := h.le; omega, List.replicate_zero, List.append_nil, h.file, hb]
  unfold M.destroy
  cases ha : m.addr with
  | false =>
    rw [if_neg (by decide)]
    refine ⟨nofun, fun f e => ?_⟩
    cases e
    have h0 : m.size = 0 := by
      rcases Nat.eq_zero_or_pos m.size with h0 | h0
      · exact h0
      · rw [h.addr h0] at ha; cases ha
    have := h.le
    rw [← hb, ← h.file, List.take_of_length_le]
    omega
  | true =>
    rw [if_pos rfl]
    unfold M.sync
    rw [h.rw_, ha]
    cases hy : Y m.k with
    | false => exact ⟨fun _ => ⟨_, hy⟩, nofun⟩
    | true =>
      rw [if_pos (show (true && true) = true from rfl)]
      dsimp only
      rw [if_neg (by decide)]
      by_cases hu : m.used = m.file.length ∨ true = false
      · rw [if_pos hu]
        refine ⟨nofun, fun f e => ?_⟩
        cases e
        have hu : m.used = m.file.length := hu.resolve_right (by decide)
        rw [← htr]
        unfold ftruncate
        rw [hu, List.take_length, Nat.sub_self, List.replicate_zero, List.append_nil]
      · rw [if_neg hu]
        cases hy2 : Y (m.k + 1) with
        | false => exact ⟨fun _ => ⟨_, hy2⟩, nofun⟩
        | true =>
          refine ⟨nofun, fun f e => ?_⟩
          rw [if_pos rfl] at e
          cases e
          exact htr

/-! ## C125, C126 -/

/-- **C125** A mapped file opened for modification, on a system where any `mmap`, `ftruncate` and `msync` may fail.  For every history of calls inside of the
bytes in use: no undefined behaviour up to the first exception; all answers up to it are those of a file without end, in which growing and shrinking change
nothing but the number of bytes in use; there is an exception, or an abort in the destructor, only if a system call failed; and if there is none the
file is left with exactly the bytes in use. -/
theorem C125_history (Y : Sys) (file : List Byte) (cs : List Call) {s : S} {bs : List Byte} (hs : (S.ofFile file).run cs = some (s, bs)) :
    (M.opened Y file true = none → ∃ k, Y k = false) ∧
    ∀ m0, M.opened Y file true = some m0 → ∃ m as ok, m0.run Y cs = .ok (m, as, ok) ∧ as = bs.take as.length ∧ (ok = false → ∃ k, Y k = false) ∧
      (ok = true → as = bs ∧ m.used = s.used ∧ (m.destroy Y = none → ∃ k, Y k = false) ∧ ∀ f, m.destroy Y = some f → f = s.bytes) := by
  refine ⟨fun h => ?_, fun m0 h => ?_⟩
  · unfold M.opened at h
    split at h
    · cases h
    · split at h
      · cases h
      · exact ⟨0, by simpa using ‹¬ Y 0 = true›⟩
  · obtain ⟨m, as, ok, e, h1, h2, h3⟩ := run_spec Y cs (opened_is Y h) hs
    exact ⟨m, as, ok, e, h1, h2, fun ho => ⟨(h3 ho).1, (h3 ho).2.used, destroy_spec Y (h3 ho).2⟩⟩

/-- What a call on a read-only mapping of a file answers (no value: an exception); writing and reading outside of the file are undefined. -/
def readOnly (file : List Byte) : Call → Option (Option Byte)
  | .resize _ | .reserve _ => some none
  | .sync => some (some 0)
  | .get i => file[i]?.map some
  | .put _ _ => none

/-- **C125** A file opened for reading, on any system: the bytes are those of the file, resizing and reserving throw, and neither the object nor the
file ever changes. -/
theorem C125_read_only (Y : Sys) (file : List Byte) {m : M} (h : M.opened Y file false = some m) :
    (∀ c a, readOnly file c = some a → m.call Y c = .ok (m, a)) ∧ m.used = file.length ∧ m.destroy Y = some file := by
  have hm : m.file = file ∧ m.rw_ = false ∧ m.size = file.length ∧ m.used = file.length ∧ (file.length ≠ 0 → m.addr = true) := by
    unfold M.opened at h
    split at h
    · injection h with h
      subst h
      refine ⟨rfl, rfl, ?_, ?_, ?_⟩ <;> simp_all
    · split at h
      · injection h with h
        subst h
        simp
      · cases h
  obtain ⟨h1, h2, h3, h4, h5⟩ := hm
  refine ⟨fun c a hc => ?_, h4, ?_⟩
  · cases c with
    | resize n => cases hc; simp [M.call, M.resize, h2]
    | reserve n => cases hc; simp [M.call, M.reserve, h2]
    | sync => cases hc; simp [M.call, M.sync, h2]
    | get i =>
      simp only [readOnly] at hc
      obtain ⟨b, hb, rfl⟩ := Option.map_eq_some_iff.1 hc
      have hi := (List.getElem?_eq_some_iff.1 hb).1
      simp only [M.call, M.get]
      rw [if_pos ⟨h5 (by omega), by omega⟩, h1, List.getD_eq_getElem?_getD, hb]
      rfl
    | put i x => cases hc
  · unfold M.destroy M.sync
    simp [h1, h2]

example : M.opened (fun k => k == 0) [7, 8] false = some ⟨[7, 8], false, 2, 2, true, 1⟩ ∧ readOnly [7, 8] (.get 1) = some (some 8) := by decide

/-- **C125** A call that throws leaves the number of bytes in use, and the file still has all of its bytes. -/
theorem C125_throw (Y : Sys) (file : List Byte) (cs : List Call) {s : S} {bs : List Byte} (hs : (S.ofFile file).run cs = some (s, bs))
    {m0 m m' : M} {as : List Byte} (h0 : M.opened Y file true = some m0) (h1 : m0.run Y cs = .ok (m, as, true)) {c : Call} {s' : S} {b : Byte}
    (hc : s.call c = some (s', b)) (h2 : m.call Y c = .ok (m', none)) : m'.used = s.used ∧ m'.file.take s.used = s.bytes := by
  obtain ⟨m1, as1, ok, e, _, _, h3⟩ := run_spec Y cs (opened_is Y h0) hs
  rw [e] at h1
  cases h1
  obtain ⟨_, hi⟩ := h3 rfl
  obtain ⟨m2, r, e2, hd⟩ := call_spec Y hi c hc
  rw [e2] at h2
  cases h2
  rcases hd with ⟨_, _, hu, hf⟩ | ⟨hn, _⟩
  · refine ⟨hu.trans hi.used, ?_⟩
    have : (m'.file.take m.size).take s.used = s.bytes := by
      rw [hf, hi.file, rd_eq_map, ← List.map_take, List.take_range, Nat.min_eq_left hi.le]
      rfl
    rw [List.take_take, Nat.min_eq_left hi.le] at this
    exact this
  · cases hn

/-- All calls succeed. -/
def calm : Sys := fun _ => true

/-- The call number `n` fails, all others succeed. -/
def oneFails (n : Nat) : Sys := fun k => decide (k ≠ n)

example : ∃ m0 m, M.opened calm [1, 2] true = some m0 ∧
    m0.run calm [.resize 5, .put 4 9, .resize 1, .resize 5, .get 4, .sync, .get 2] = .ok (m, [0, 0, 0, 0, 9, 0, 0], true) ∧
    m.destroy calm = some [1, 2, 0, 0, 9] := by
  obtain ⟨_, h⟩ := C125_history calm [1, 2] [.resize 5, .put 4 9, .resize 1, .resize 5, .get 4, .sync, .get 2] rfl
  obtain ⟨m, as, ok, e, _, h2, h3⟩ := h _ rfl
  have ho : ok = true := by
    cases ok with
    | true => rfl
    | false => obtain ⟨k, hk⟩ := h2 rfl; cases hk
  subst ho
  obtain ⟨e1, _, h4, h5⟩ := h3 rfl
  refine ⟨_, m, rfl, by rw [e, e1]; rfl, ?_⟩
  cases hd : m.destroy calm with
  | none => obtain ⟨k, hk⟩ := h4 hd; cases hk
  | some f => rw [h5 f hd]; rfl

/-- The `mmap` after the `ftruncate` fails. -/
example : ∃ m0 m, M.opened (oneFails 2) [1, 2] true = some m0 ∧ m0.call (oneFails 2) (.resize 5) = .ok (m, none) ∧ m.used = 2 ∧ m.file.take 2 = [1, 2] := by
  have e : (⟨[1, 2], true, 2, 2, true, 1⟩ : M).call (oneFails 2) (.resize 5) = .ok (⟨[1, 2, 0, 0, 0, 0, 0, 0], true, 8, 2, false, 3⟩, none) := by
    decide +kernel
  obtain ⟨h1, h2⟩ := C125_throw (oneFails 2) [1, 2] [] rfl (m0 := ⟨[1, 2], true, 2, 2, true, 1⟩) rfl rfl (c := .resize 5) rfl e
  exact ⟨_, _, rfl, e, h1, h2⟩

/-- **C126 (violated)** After a `resize` whose `ftruncate` or `mmap` failed the file is unmapped, but `size_` already has the new value and `size()` the old
one: reading any byte is undefined, on every system, and a following `resize` to up to the new size reports success without mapping anything. -/
theorem C126_unmapped_violated (Y : Sys) {m : M} {s : S} (h : Is m s) {n : Nat} (hn : n ≤ 2 ^ 63) (ht : (m.resize Y n).2 = false) :
    (m.resize Y n).1.used = s.used ∧ (∀ i, (m.resize Y n).1.get i = .error .ub) ∧
    ∀ l, l ≤ n → ((m.resize Y n).1.resize Y l).2 = true ∧ ∀ i, ((m.resize Y n).1.resize Y l).1.get i = .error .ub := by
  by_cases hz : m.size < n
  · rw [resize_grow Y h.rw_ hz] at ht
    have hge := np2_ge (n := n) (by omega) hn
    have hr : (m.resizeMap Y (np2 n)).2 = false := by
      cases hr : (m.resizeMap Y (np2 n)).2 with
      | false => rfl
      | true => rw [hr, if_pos rfl] at ht; cases ht
    have e : m.resize Y n = m.resizeMap Y (np2 n) := by
      rw [resize_grow Y h.rw_ hz, hr, if_neg (by decide)]
    have ha : (m.resizeMap Y (np2 n)).1.addr = false ∧ (m.resizeMap Y (np2 n)).1.size = np2 n ∧ (m.resizeMap Y (np2 n)).1.rw_ = true ∧
        (m.resizeMap Y (np2 n)).1.used = m.used := by
      unfold M.resizeMap at hr ⊢
      split at hr
      · split at hr
        · cases hr
        · exact ⟨by rename_i h1 h2; rw [if_pos h1, if_neg h2], by rename_i h1 h2; rw [if_pos h1, if_neg h2], by
            rename_i h1 h2; rw [if_pos h1, if_neg h2]; exact h.rw_, by rename_i h1 h2; rw [if_pos h1, if_neg h2]⟩
      · exact ⟨by rename_i h1; rw [if_neg h1], by rename_i h1; rw [if_neg h1], by
          rename_i h1; rw [if_neg h1]; exact h.rw_, by rename_i h1; rw [if_neg h1]⟩
    obtain ⟨a1, a2, a3, a4⟩ := ha
    rw [e]
    refine ⟨a4.trans h.used, fun i => ?_, fun l hl => ?_⟩
    · unfold M.get
      rw [a1, if_neg (fun h => by cases h.1)]
    · rw [resize_fit Y a3 (by omega)]
      refine ⟨rfl, fun i => ?_⟩
      unfold M.get
      dsimp only
      rw [a1, if_neg (fun h => by cases h.1)]
  · rw [resize_fit Y h.rw_ hz] at ht
    cases ht

example : ((⟨[1, 2], true, 2, 2, true, 1⟩ : M).resize (oneFails 2) 5).2 = false ∧
    (((⟨[1, 2], true, 2, 2, true, 1⟩ : M).resize (oneFails 2) 5).1.resize (oneFails 2) 3).2 = true ∧
    ((⟨[1, 2], true, 2, 2, true, 1⟩ : M).resize (oneFails 2) 5).1.get 0 = .error .ub := by
  have hi : Is ⟨[1, 2], true, 2, 2, true, 1⟩ (.ofFile [1, 2]) := opened_is (oneFails 2) (f := [1, 2]) rfl
  have ht : ((⟨[1, 2], true, 2, 2, true, 1⟩ : M).resize (oneFails 2) 5).2 = false := by decide +kernel
  obtain ⟨_, h2, h3⟩ := C126_unmapped_violated (oneFails 2) hi (by decide) ht
  exact ⟨ht, (h3 3 (by decide)).1, h2 0⟩

/-- **C126 (violated)** After a failed `mmap` the destructor does nothing: any writable mapping that has to grow, on a system where `ftruncate` works
and the following `mmap` does not.  The number of used bytes is unchanged, the file keeps the length it was given for growing. -/
theorem C126_length_violated (Y : Sys) {m : M} {n : Nat} (hr : m.rw_ = true) (hn : m.size < n) (h1 : Y m.k = true) (h2 : Y (m.k + 1) = false) :
    (m.resize Y n).2 = false ∧ (m.resize Y n).1.used = m.used ∧
      (m.resize Y n).1.destroy Y = some (ftruncate m.file (np2 n)) := by
  have e : m.resizeMap Y (np2 n) =
      ({ m with file := ftruncate m.file (np2 n), size := np2 n, addr := false, k := m.k + 2 }, false) := by
    unfold M.resizeMap
    rw [if_pos h1, if_neg (fun h => by rw [h2] at h; cases h.2)]
  have e' : m.resize Y n =
      ({ m with file := ftruncate m.file (np2 n), size := np2 n, addr := false, k := m.k + 2 }, false) := by
    unfold M.resize
    rw [if_neg (by rw [hr]; decide), if_pos hn, e]
    rfl
  rw [e']
  exact ⟨rfl, rfl, rfl⟩

example : ((⟨[1, 2], true, 2, 2, true, 1⟩ : M).resize (oneFails 2) 5).1.used = 2 ∧
    ((⟨[1, 2], true, 2, 2, true, 1⟩ : M).resize (oneFails 2) 5).1.destroy (oneFails 2) = some [1, 2, 0, 0, 0, 0, 0, 0] := by
  obtain ⟨_, h1, h2⟩ := C126_length_violated (oneFails 2) (m := ⟨[1, 2], true, 2, 2, true, 1⟩) (n := 5) rfl (by decide) rfl rfl
  exact ⟨h1, h2.trans (by decide +kernel)⟩

/-- **C126 (violated)** The destructor throws when `msync` fails, which ends the program: any mapped file, on a system where the next call fails. -/
theorem C126_terminate_violated (Y : Sys) {m : M} (ha : m.addr = true) (hr : m.rw_ = true) (hy : Y m.k = false) : m.destroy Y = none := by
  unfold M.destroy M.sync
  rw [if_pos ha, ha, hr, if_pos (show (true && true) = true from rfl)]
  dsimp only
  rw [hy, if_pos rfl]

example : (⟨[1, 2], true, 2, 2, true, 1⟩ : M).destroy (oneFails 1) = none := C126_terminate_violated _ rfl rfl rfl

/-- `next_power_of_two` of more than 2^63 is 0. -/
theorem np2_huge : np2 (2 ^ 63 + 1) = 0 := by
  unfold np2
  decide +kernel

/-- **C126 (violated)** `resize` to more than 2^63 bytes throws, on every system, but where `ftruncate` works only after it has emptied the file. -/
theorem C126_huge_violated (Y : Sys) {m : M} (hr : m.rw_ = true) (hz : m.size ≤ 2 ^ 63) (hy : Y m.k = true) :
    (m.resize Y (2 ^ 63 + 1)).2 = false ∧ (m.resize Y (2 ^ 63 + 1)).1.file = [] := by
  have e : m.resizeMap Y 0 = ({ m with file := ftruncate m.file 0, size := 0, addr := false, k := m.k + 2 }, false) := by
    unfold M.resizeMap
    rw [hy, if_pos rfl, if_neg (by omega)]
  rw [resize_grow Y hr (by omega), np2_huge, e]
  refine ⟨rfl, ?_⟩
  show ftruncate m.file 0 = []
  unfold ftruncate
  rw [List.take_zero, Nat.zero_sub]
  rfl

example : ((⟨[1, 2], true, 2, 2, true, 1⟩ : M).resize calm (2 ^ 63 + 1)).1.file = [] := (C126_huge_violated calm rfl (by decide) rfl).2

/-! ### The vector on top -/

/-- mmap_vec.h:173-174: the mapping and `used_size_`. -/
structure V where
  m : M
  used : Nat

/-- mmap_vec.h:29-33 `push_back` of an element of `s` bytes up to the assignment. -/
def V.pushBack (Y : Sys) (s : Nat) (v : V) : V × Bool :=
  let r := v.m.resize Y (s * (v.used + 1))
  (⟨r.1, v.used + 1⟩, r.2)

/-- **C126 (violated)** `push_back` counts the element before it asks for memory: whenever it throws, `size()` counts one more element than there are in
the mapping, and no element can be accessed. -/
theorem C126_push_back_violated (Y : Sys) {s : Nat} {v : V} {a : S} (hi : Is v.m a) (hu : a.used = s * v.used) (h0 : 0 < s)
    (hn : s * (v.used + 1) ≤ 2 ^ 63) (h : (v.pushBack Y s).2 = false) :
    (v.pushBack Y s).1.used = v.used + 1 ∧ (v.pushBack Y s).1.m.used < s * (v.pushBack Y s).1.used ∧ ∀ i, (v.pushBack Y s).1.m.get i = .error .ub := by
  obtain ⟨h1, h2, _⟩ := C126_unmapped_violated Y hi hn h
  refine ⟨rfl, ?_, h2⟩
  show (v.m.resize Y (s * (v.used + 1))).1.used < s * (v.used + 1)
  rw [h1, hu, Nat.mul_succ]
  omega

example : (V.pushBack (oneFails 1) 2 ⟨⟨[1, 2], true, 2, 2, true, 1⟩, 1⟩).2 = false ∧
    (V.pushBack (oneFails 1) 2 ⟨⟨[1, 2], true, 2, 2, true, 1⟩, 1⟩).1.used = 2 := by
  have h : (V.pushBack (oneFails 1) 2 ⟨⟨[1, 2], true, 2, 2, true, 1⟩, 1⟩).2 = false := by decide +kernel
  exact ⟨h, (C126_push_back_violated (oneFails 1) (opened_is (oneFails 1) (f := [1, 2]) rfl) rfl (by decide) (by decide) h).1⟩

end Cista.MmapFail

import Verif.Ser.Write

/-!
# C88: serialization of C strings

Model of the `generic_cstring` overload of `serialize` (serialization.h:258-285) and of loading, over the byte memory of `Ser/Model.lean`.
The type is not part of the universe `Ty`: there is no overload for reading it, so the generic functions of serialization.h:693-735 apply,
which neither convert nor check anything in it.

Layout (cstring.h:304-349): `ptr_` at 0, `size_` at 8 (4 bytes), `self_allocated_` at 12, `minus_one_`/`remaining_` at 15.
-/
set_option linter.unusedSimpArgs false

namespace Cista.Ser.CString

open Cista Cista.Ser

/-! ## Observers -/

/-- cstring.h:59 `is_short()`: `remaining_ >= 0`. -/
def isShort (m : Mem) (a : Nat) : Bool := decide ((m (a + 15)).toNat < 128)

/-- cstring.h:61 `is_owning()` of a long string. -/
def selfAllocated (m : Mem) (a : Nat) : Bool := decide (m (a + 12) ≠ 0#8)

/-- cstring.h:302, 328, 340-343 `size()`. -/
def size (h : Endian) (m : Mem) (a : Nat) : Nat :=
  if isShort m a then 15 - (m (a + 15)).toNat else rdN h m (a + 8) 4

/-- cstring.h:289-300 `data()`. -/
def data (h : Endian) (raw : Bool) (m : Mem) (a : Nat) : Option Nat :=
  if isShort m a then some a else ptrAt h raw m a

/-- cstring.h:141 `view()`: the text, if it can be read. -/
def text (h : Endian) (raw : Bool) (m : Mem) (a : Nat) : Option (List Byte) :=
  if size h m a = 0 then some [] else (data h raw m a).map fun p => rd m p (size h m a)

/-- Objects the library creates (C17): inline strings with at most 15 characters, heap strings with a terminator, views of memory. -/
def Valid (h : Endian) (raw : Bool) (m : Mem) (a : Nat) : Prop :=
  if isShort m a then (m (a + 15)).toNat ≤ 15
  else if selfAllocated m a then ∃ p, ptrAt h raw m a = some p ∧ m (p + rdN h m (a + 8) 4) = 0#8
  else rdN h m (a + 8) 4 = 0 ∨ ∃ p, ptrAt h raw m a = some p

/-! ## Writing and loading -/

/-- serialization.h:266-276: the characters and a terminator; an owning string brings its own terminator, the others are copied first. -/
def bytes (e : SEnv) (a : Nat) : Res (List Byte) :=
  match ptrAt e.host e.raw e.mem a with
  | some p =>
    if selfAllocated e.mem a then .ok (rd e.mem p (rdN e.host e.mem (a + 8) 4 + 1))
    else .ok (rd e.mem p (rdN e.host e.mem (a + 8) 4) ++ [0#8])
  | none => do
    require (!selfAllocated e.mem a && decide (rdN e.host e.mem (a + 8) 4 = 0))
    .ok [0#8]

/-- serialization.h:258-285, 298-301. -/
def ser (e : SEnv) (a pos : Nat) (c : Ctx) : Res Ctx :=
  if isShort e.mem a then .ok c
  else do
    let bs ← bytes e a
    let c1 ← patchOff e (put c bs 0).1 pos (((put c bs 0).2 : Int) - pos)
    let c2 ← patch c1 (pos + 8) (cv e.conv (rd e.mem (a + 8) 4))
    let c3 ← patch c2 (pos + 12) [0#8]
    patch c3 (pos + 15) [255#8]

/-- serialization.h:507-509 with the overload for arrays: an `array<cstring, n>` (or a struct of `n` C strings) as root. -/
def serRoot (e : SEnv) (a n : Nat) (c : Ctx) : Res (Ctx × Nat) := do
  let r := put c (rd e.mem a (16 * n)) 8
  let c' ← forFrom (fun i => ser e (a + 16 * i) (r.2 + 16 * i)) 0 n r.1
  .ok (c', r.2)

/-- serialization.h:736-746 on a C string at `pos`: the object lies in the buffer and is aligned; nothing else is looked at. -/
def load (base len pos : Nat) : Res Unit :=
  verify (decide (pos + 16 ≤ len ∧ (base + pos) % 8 = 0))

/-- A buffer of `len` bytes placed at `base`. -/
def Loaded (buf : Mem) (len : Nat) (m : Mem) (base : Nat) : Prop := ∀ x, x < len → m (base + x) = buf x

/-! ## What the writer leaves in the buffer -/

/-- The characters of the string at `a`. -/
def chars (e : SEnv) (a : Nat) : List Byte :=
  match ptrAt e.host e.raw e.mem a with
  | some p => rd e.mem p (rdN e.host e.mem (a + 8) 4)
  | none => []

/-- The object at `pos` in the buffer of length `len` stands for the one at `a`; its characters are at `lo` or later. -/
def Stands (e : SEnv) (a pos lo len : Nat) (b : Mem) : Prop :=
  if isShort e.mem a then rd b pos 16 = rd e.mem a 16
  else ∃ start, lo ≤ start ∧ start + ((chars e a).length + 1) ≤ len ∧
    rd b pos 8 = cv e.conv (encI e.host ((start : Int) - pos)) ∧ rd b (pos + 8) 4 = cv e.conv (rd e.mem (a + 8) 4) ∧
    b (pos + 12) = 0#8 ∧ b (pos + 15) = 255#8 ∧ rd b start ((chars e a).length + 1) = chars e a ++ [0#8]

theorem chars_length {e : SEnv} {a : Nat} (hs : isShort e.mem a = false) (hv : Valid e.host e.raw e.mem a) :
    (chars e a).length = rdN e.host e.mem (a + 8) 4 := by
  unfold Valid at hv
  rw [if_neg (by simp [hs])] at hv
  unfold chars
  cases hp : ptrAt e.host e.raw e.mem a with
  | some p => simp
  | none =>
    split at hv
    · obtain ⟨p, h1, _⟩ := hv
      rw [hp] at h1
      cases h1
    · rcases hv with h | ⟨p, h1⟩
      · rw [h]; rfl
      · rw [hp] at h1
        cases h1

theorem bytes_ok {e : SEnv} {a : Nat} (hs : isShort e.mem a = false) (hv : Valid e.host e.raw e.mem a) :
    bytes e a = .ok (chars e a ++ [0#8]) := by
  unfold Valid at hv
  rw [if_neg (by simp [hs])] at hv
  unfold bytes chars
  cases hp : ptrAt e.host e.raw e.mem a with
  | some p =>
    dsimp only
    split at hv
    · rename_i hsa
      rw [if_pos hsa]
      obtain ⟨q, h1, h2⟩ := hv
      rw [hp] at h1
      cases h1
      congr 1
      unfold rd
      rw [List.range_succ, List.map_append]
      simp [h2]
    · rename_i hsa
      rw [if_neg hsa]
  | none =>
    dsimp only
    split at hv
    · obtain ⟨q, h1, _⟩ := hv
      rw [hp] at h1
      cases h1
    · rename_i hsa
      rcases hv with h | ⟨q, h1⟩
      · rw [h]
        simp only [Bool.not_eq_true] at hsa
        rw [hsa]
        rfl
      · rw [hp] at h1
        cases h1

theorem Stands.frame {e : SEnv} {a pos lo len len' : Nat} {b b' : Mem} (h : Stands e a pos lo len b) (hlen : len ≤ len')
    (h1 : ∀ x, pos ≤ x → x < pos + 16 → b' x = b x) (h2 : ∀ x, lo ≤ x → x < len → b' x = b x) : Stands e a pos lo len' b' := by
  unfold Stands at h ⊢
  split at h
  · rename_i hs
    rw [if_pos hs, ← h]
    exact rd_congr fun x hx hx' => h1 x hx hx'
  · rename_i hs
    rw [if_neg hs]
    obtain ⟨s, g1, g2, g3, g4, g5, g6, g7⟩ := h
    refine ⟨s, g1, by omega, ?_, ?_, ?_, ?_, ?_⟩
    · rw [← g3]; exact rd_congr fun x hx hx' => h1 x hx (by omega)
    · rw [← g4]; exact rd_congr fun x hx hx' => h1 x (by omega) (by omega)
    · rw [h1 _ (by omega) (by omega), g5]
    · rw [h1 _ (by omega) (by omega), g6]
    · rw [← g7]; exact rd_congr fun x hx hx' => h2 x (by omega) (by omega)

theorem ser_ok {e : SEnv} {a pos lo : Nat} {c : Ctx} (hv : Valid e.host e.raw e.mem a) (hp : pos + 16 ≤ c.len) (hlo : lo ≤ c.len)
    (hc : rd c.buf pos 16 = rd e.mem a 16) :
    ∃ c', ser e a pos c = .ok c' ∧ c.len ≤ c'.len ∧ (∀ x, x < c.len → (x < pos ∨ pos + 16 ≤ x) → c'.buf x = c.buf x) ∧
      Stands e a pos lo c'.len c'.buf := by
  unfold ser Stands
  cases hs : isShort e.mem a with
  | true =>
    simp only [if_true]
    exact ⟨c, rfl, Nat.le_refl _, fun _ _ _ => rfl, hc⟩
  | false =>
    simp only [Bool.false_eq_true, if_false]
    rw [bytes_ok hs hv, ok_bind]
    have hpos : (put c (chars e a ++ [0#8]) 0).2 = c.len := rfl
    have hbuf : (put c (chars e a ++ [0#8]) 0).1.buf = wr c.buf c.len (chars e a ++ [0#8]) := rfl
    have hlen : (put c (chars e a ++ [0#8]) 0).1.len = c.len + ((chars e a).length + 1) := by rw [put_len, hpos]; simp
    generalize hw : put c (chars e a ++ [0#8]) 0 = w at hpos hbuf hlen
    obtain ⟨w, s⟩ := w
    dsimp only at hpos hbuf hlen ⊢
    subst hpos
    unfold patchOff
    rw [patch_ok (by simp; omega), ok_bind, patch_ok (by simp; omega), ok_bind, patch_ok (by simp; omega), ok_bind,
      patch_ok (by simp; omega)]
    refine ⟨_, rfl, by show c.len ≤ w.len; omega, ?_, c.len, hlo, by show _ ≤ w.len; omega, ?_, ?_, ?_, ?_, ?_⟩
    · intro x hx hx'
      show wr (wr (wr (wr w.buf _ _) _ _) _ _) _ _ x = _
      rw [wr_out (by simp; omega), wr_out (by simp; omega), wr_out (by simp; omega), wr_out (by simp; omega), hbuf, wr_out (by omega)]
    · show rd (wr (wr (wr (wr w.buf _ _) _ _) _ _) _ _) _ _ = _
      rw [rd_wr_disj (by simp <;> omega), rd_wr_disj (by simp <;> omega), rd_wr_disj (by simp <;> omega), rd_wr_same' _ _ _ _ (by simp)]
    · show rd (wr (wr (wr (wr w.buf _ _) _ _) _ _) _ _) _ _ = _
      rw [rd_wr_disj (by simp <;> omega), rd_wr_disj (by simp <;> omega), rd_wr_same' _ _ _ _ (by simp)]
    · show wr (wr (wr (wr w.buf _ _) _ _) _ _) _ _ _ = _
      rw [wr_out (by simp)]
      have := rd_wr_same' (wr (wr w.buf pos (cv e.conv (encI e.host ((c.len : Int) - pos)))) (pos + 8) (cv e.conv (rd e.mem (a + 8) 4)))
        (pos + 12) 1 [0#8] rfl
      rw [rd_one] at this
      exact List.head_eq_of_cons_eq this
    · show wr _ _ _ _ = _
      have := rd_wr_same' (wr (wr (wr w.buf pos (cv e.conv (encI e.host ((c.len : Int) - pos)))) (pos + 8) (cv e.conv (rd e.mem (a + 8) 4)))
        (pos + 12) [0#8]) (pos + 15) 1 [255#8] rfl
      rw [rd_one] at this
      exact List.head_eq_of_cons_eq this
    · show rd (wr (wr (wr (wr w.buf _ _) _ _) _ _) _ _) _ _ = _
      rw [rd_wr_disj (by simp; omega), rd_wr_disj (by simp; omega), rd_wr_disj (by simp; omega), rd_wr_disj (by simp; omega), hbuf,
        rd_wr_same' _ _ _ _ (by simp)]

theorem loop_ok {e : SEnv} {a p n lo : Nat} (hlo : lo = p + 16 * n) (hv : ∀ i, i < n → Valid e.host e.raw e.mem (a + 16 * i)) :
    ∀ (k i : Nat) (c : Ctx), i + k = n → lo ≤ c.len → (∀ j, i ≤ j → j < n → rd c.buf (p + 16 * j) 16 = rd e.mem (a + 16 * j) 16) →
      (∀ j, j < i → Stands e (a + 16 * j) (p + 16 * j) lo c.len c.buf) →
      ∃ c', forFrom (fun i => ser e (a + 16 * i) (p + 16 * i)) i k c = .ok c' ∧ lo ≤ c'.len ∧ (∀ x, x < p → c'.buf x = c.buf x) ∧
        ∀ j, j < n → Stands e (a + 16 * j) (p + 16 * j) lo c'.len c'.buf
  | 0, i, c, hi, hl, _, hs => ⟨c, rfl, hl, fun _ _ => rfl, fun j hj => hs j (by omega)⟩
  | k + 1, i, c, hi, hl, hr, hs => by
    obtain ⟨c1, e1, l1, f1, s1⟩ := ser_ok (hv i (by omega)) (show p + 16 * i + 16 ≤ c.len by omega) hl (hr i (by omega) (by omega))
    obtain ⟨c2, e2, l2, f2, s2⟩ := loop_ok hlo hv k (i + 1) c1 (by omega) (by omega)
      (fun j h1 h2 => by
        rw [← hr j (by omega) h2]
        exact rd_congr fun x hx hx' => f1 x (by omega) (by omega))
      (fun j hj => by
        by_cases h : j = i
        · subst h; exact s1
        · exact (hs j (by omega)).frame l1 (fun x hx hx' => f1 x (by omega) (by omega)) (fun x hx hx' => f1 x hx' (by omega)))
    refine ⟨c2, ?_, l2, fun x hx => by rw [f2 x hx, f1 x (by omega) (by omega)], s2⟩
    rw [forFrom_succ, e1, ok_bind, e2]

theorem serRoot_ok {e : SEnv} {a n : Nat} (c : Ctx) (hv : ∀ i, i < n → Valid e.host e.raw e.mem (a + 16 * i)) :
    ∃ c' p, serRoot e a n c = .ok (c', p) ∧ c.len ≤ p ∧ 8 ∣ p ∧ p + 16 * n ≤ c'.len ∧ (∀ x, x < c.len → c'.buf x = c.buf x) ∧
      ∀ j, j < n → Stands e (a + 16 * j) (p + 16 * j) (p + 16 * n) c'.len c'.buf := by
  unfold serRoot
  have hle := put_pos_le c (rd e.mem a (16 * n)) 8
  have hd := put_pos_dvd c (rd e.mem a (16 * n)) (al := 8) (by decide)
  have hl := put_len c (rd e.mem a (16 * n)) 8
  have hb := put_buf c (rd e.mem a (16 * n)) 8
  generalize put c (rd e.mem a (16 * n)) 8 = w at hle hd hl hb
  obtain ⟨w, p⟩ := w
  dsimp only at hle hd hl hb ⊢
  rw [length_rd] at hl
  obtain ⟨c', e1, l1, f1, s1⟩ := loop_ok (e := e) (a := a) (p := p) (n := n) rfl hv n 0 w (by omega) (by omega)
    (fun j _ hj => by rw [hb]; exact rd_wr_sub (by omega)) (fun j hj => absurd hj (by omega))
  refine ⟨c', p, by rw [e1, ok_bind], hle, hd, l1, fun x hx => ?_, s1⟩
  rw [f1 x (by omega), hb, wr_out (by omega)]

/-! ## C88 -/

theorem Stands.short {e : SEnv} {a pos lo len base : Nat} {b L : Mem} (h : Stands e a pos lo len b) (hp : pos + 16 ≤ len)
    (hL : Loaded b len L base) (hs : isShort e.mem a = true) (hv : Valid e.host e.raw e.mem a) :
    isShort L (base + pos) = true ∧ text e.host e.raw L (base + pos) = text e.host e.raw e.mem a := by
  unfold Stands at h
  rw [if_pos hs] at h
  have h16 : rd L (base + pos) 16 = rd e.mem a 16 := by
    rw [← h]
    refine rd_eq_iff.2 fun i hi => ?_
    rw [Nat.add_assoc]
    exact hL _ (by omega)
  have hb : ∀ i, i < 16 → L (base + pos + i) = e.mem (a + i) := rd_eq_iff.1 h16
  have hs' : isShort L (base + pos) = true := by
    unfold isShort at hs ⊢
    rw [hb 15 (by omega)]; exact hs
  refine ⟨hs', ?_⟩
  unfold text size data
  rw [if_pos hs', if_pos hs', if_pos hs, if_pos hs, hb 15 (by omega)]
  split
  · rfl
  · simp only [Option.map_some]
    congr 1
    refine rd_eq_iff.2 fun i hi => hb i (by omega)

/-- A long string after loading, with offset pointers and without byte swapping. -/
theorem Stands.long {e : SEnv} {a pos lo len base : Nat} {b L : Mem} (h : Stands e a pos lo len b) (hp : pos + 16 ≤ lo) (hll : lo ≤ len)
    (hlen : len < 2 ^ 63) (hraw : e.raw = false) (hconv : e.conv = false)
    (hL : Loaded b len L base) (hs : isShort e.mem a = false) (hv : Valid e.host e.raw e.mem a) :
    isShort L (base + pos) = false ∧ selfAllocated L (base + pos) = false ∧ size e.host L (base + pos) = size e.host e.mem a ∧
    ∃ q, data e.host false L (base + pos) = some q ∧ base ≤ q ∧ q + (size e.host e.mem a + 1) ≤ base + len ∧
      rd L q (size e.host e.mem a + 1) = chars e a ++ [0#8] := by
  unfold Stands at h
  rw [if_neg (by simp [hs])] at h
  obtain ⟨s, g1, g2, g3, g4, g5, g6, g7⟩ := h
  have hcl := chars_length hs hv
  have hsz : size e.host e.mem a = rdN e.host e.mem (a + 8) 4 := by unfold size; rw [if_neg (by simp [hs])]
  rw [hconv] at g3 g4
  have hs' : isShort L (base + pos) = false := by
    unfold isShort
    rw [Nat.add_assoc, hL _ (by omega), g6]
    rfl
  have hsz' : size e.host L (base + pos) = size e.host e.mem a := by
    rw [hsz]
    unfold size rdN
    rw [if_neg (by simp [hs'])]
    congr 1
    rw [show rd e.mem (a + 8) 4 = rd b (pos + 8) 4 from g4.symm]
    refine rd_eq_iff.2 fun i hi => ?_
    rw [show base + pos + 8 + i = base + (pos + 8 + i) by omega]
    exact hL _ (by omega)
  have h8 : rd L (base + pos) 8 = encI e.host ((s : Int) - pos) := by
    rw [show encI e.host ((s : Int) - pos) = rd b pos 8 from g3.symm]
    refine rd_eq_iff.2 fun i hi => ?_
    rw [Nat.add_assoc]
    exact hL _ (by omega)
  refine ⟨hs', ?_, hsz', base + s, ?_, by omega, by rw [hsz]; omega, ?_⟩
  · unfold selfAllocated
    rw [Nat.add_assoc, hL _ (by omega), g5]
    rfl
  · unfold data ptrAt
    rw [if_neg (by simp [hs']), if_neg Bool.false_ne_true, h8, decI_encI ⟨by omega, by omega⟩, NULLO_eq, if_neg (by omega), if_neg (by omega)]
    congr 1
    omega
  · rw [hsz, ← hcl, ← g7]
    refine rd_eq_iff.2 fun i hi => ?_
    rw [Nat.add_assoc]
    exact hL _ (by omega)

/-- C88: `n` C strings (inline, owning, views) are written into any buffer and loaded at any address; each then shows the text it had,
zero-terminated inside the loaded buffer and not owned by the string.  Offset pointers, no byte swapping. -/
theorem C88_roundtrip {e : SEnv} {a n : Nat} (c : Ctx) (hraw : e.raw = false) (hconv : e.conv = false)
    (hv : ∀ i, i < n → Valid e.host false e.mem (a + 16 * i)) :
    ∃ c' p, serRoot e a n c = .ok (c', p) ∧ c.len ≤ p ∧ p + 16 * n ≤ c'.len ∧ (∀ x, x < c.len → c'.buf x = c.buf x) ∧
      (c'.len < 2 ^ 63 → ∀ L base, 8 ∣ base → Loaded c'.buf c'.len L base → ∀ i, i < n →
        load base c'.len (p + 16 * i) = .ok () ∧
        text e.host false L (base + (p + 16 * i)) = text e.host false e.mem (a + 16 * i) ∧
        (isShort L (base + (p + 16 * i)) = false → selfAllocated L (base + (p + 16 * i)) = false ∧
          ∃ q, data e.host false L (base + (p + 16 * i)) = some q ∧ base ≤ q ∧
            q + size e.host L (base + (p + 16 * i)) < base + c'.len ∧ L (q + size e.host L (base + (p + 16 * i))) = 0#8)) := by
  obtain ⟨c', p, e1, hle, hd, hl, hf, hst⟩ := serRoot_ok (e := e) (a := a) (n := n) c (by rw [hraw]; exact hv)
  refine ⟨c', p, e1, hle, hl, hf, fun h63 L base hbase hL i hi => ?_⟩
  have hst := hst i hi
  have hload : load base c'.len (p + 16 * i) = .ok () := by
    unfold load
    rw [decide_eq_true ⟨by omega, by omega⟩, verify_true]
  refine ⟨hload, ?_⟩
  cases hs : isShort e.mem (a + 16 * i) with
  | true =>
    obtain ⟨h1, h2⟩ := hst.short (by omega) hL hs (by rw [hraw]; exact hv i hi)
    rw [hraw] at h2
    exact ⟨h2, fun h => absurd (h1.symm.trans h) (by decide)⟩
  | false =>
    obtain ⟨h1, h2, h3, q, h4, h5, h6, h7⟩ := hst.long (by omega) hl h63 hraw hconv hL hs (by rw [hraw]; exact hv i hi)
    have hcl := chars_length hs (by rw [hraw]; exact hv i hi)
    have hsz : size e.host e.mem (a + 16 * i) = (chars e (a + 16 * i)).length := by
      unfold size
      rw [if_neg (by simp [hs]), hcl]
    rw [h3]
    have hget : ∀ j, j ≤ (chars e (a + 16 * i)).length → L (q + j) = (chars e (a + 16 * i) ++ [0#8]).getD j 0#8 := by
      intro j hj
      rw [← h7, List.getD_eq_getElem?_getD, List.getElem?_eq_getElem (by simp; omega), getElem_rd]
      rfl
    refine ⟨?_, fun _ => ⟨h2, q, h4, h5, by omega, ?_⟩⟩
    · have htext : rd L q (size e.host e.mem (a + 16 * i)) = chars e (a + 16 * i) := by
        refine List.ext_getElem (by simp [hsz]) fun j g1 g2 => ?_
        rw [getElem_rd, hget j (by omega), List.getD_eq_getElem?_getD, List.getElem?_append_left g2, List.getElem?_eq_getElem g2]
        rfl
      unfold text
      rw [h3]
      split
      · rfl
      · rename_i hne
        rw [h4, Option.map_some, htext]
        unfold data chars
        rw [if_neg (by simp [hs]), hraw]
        cases hp : ptrAt e.host false e.mem (a + 16 * i) with
        | some x =>
          rw [Option.map_some]
          unfold size
          rw [if_neg (by simp [hs])]
        | none =>
          exfalso
          apply hne
          rw [hsz]
          unfold chars
          rw [hraw, hp]
          rfl
    · rw [hsz, hget _ (Nat.le_refl _), List.getD_eq_getElem?_getD, List.getElem?_append_right (Nat.le_refl _)]
      simp

/-- Two strings at 1000 (inline "ab") and 1016 (16 times 'x' at 2000, owning), offset pointers, little endian. -/
def demoMem : Mem := fun x =>
  if x = 1000 then 97#8 else if x = 1001 then 98#8 else if x = 1015 then 13#8
  else if 1016 ≤ x ∧ x < 1024 then (encI .little 984).getD (x - 1016) 0#8
  else if x = 1024 then 16#8 else if x = 1028 then 1#8 else if x = 1031 then 255#8
  else if 2000 ≤ x ∧ x < 2016 then 120#8 else 0#8

def demoEnv : SEnv := ⟨.little, false, false, demoMem⟩

theorem demo_valid : ∀ i, i < 2 → Valid demoEnv.host false demoEnv.mem (1000 + 16 * i) := by
  intro i hi
  have : i = 0 ∨ i = 1 := by omega
  rcases this with rfl | rfl
  · unfold Valid
    rw [if_pos (by decide)]
    decide
  · unfold Valid
    rw [if_neg (by decide), if_pos (by decide)]
    exact ⟨2000, by decide, by decide⟩

example : text .little false demoMem 1000 = some [97#8, 98#8] ∧ text .little false demoMem 1016 = some (List.replicate 16 120#8) := by decide

example : ∃ c' p, serRoot demoEnv 1000 2 ⟨3, fun _ => 7#8, [], [], []⟩ = .ok (c', p) ∧ c'.len = 57 ∧ p = 8 ∧
    text .little false (fun x => c'.buf (x - 4096)) (4096 + 8) = some [97#8, 98#8] ∧
    text .little false (fun x => c'.buf (x - 4096)) (4096 + 24) = some (List.replicate 16 120#8) :=
  ⟨_, _, rfl, by decide, by decide, by decide, by decide⟩

example : ∃ c' p, serRoot demoEnv 1000 2 ⟨3, fun _ => 7#8, [], [], []⟩ = .ok (c', p) ∧ (c'.len < 2 ^ 63 → ∀ L base, 8 ∣ base →
    Loaded c'.buf c'.len L base → text .little false L (base + (p + 16 * 1)) = text .little false demoMem (1000 + 16 * 1)) := by
  obtain ⟨c', p, h1, _, _, _, h2⟩ := C88_roundtrip (e := demoEnv) (a := 1000) (n := 2) ⟨3, fun _ => 7#8, [], [], []⟩ rfl rfl demo_valid
  exact ⟨c', p, h1, fun h L base hb hL => (h2 h L base hb hL 1 (by decide)).2.1⟩

/-! ## What fails outside the domain of C88 -/

/-- With raw pointers the distance written by the serializer is never turned into an address: after loading, a long C string designates
memory below the buffer (whenever the buffer is placed above its own length). -/
theorem raw_violated {e : SEnv} {a n : Nat} (c : Ctx) (hraw : e.raw = true) (hconv : e.conv = false)
    (hv : ∀ i, i < n → Valid e.host true e.mem (a + 16 * i)) :
    ∃ c' p, serRoot e a n c = .ok (c', p) ∧ (c'.len < 2 ^ 63 → ∀ L base, 8 ∣ base → c'.len ≤ base → Loaded c'.buf c'.len L base → ∀ i, i < n →
      isShort e.mem (a + 16 * i) = false → load base c'.len (p + 16 * i) = .ok () ∧
      ∃ q, data e.host true L (base + (p + 16 * i)) = some q ∧ q < base) := by
  obtain ⟨c', p, e1, hle, hd, hl, hf, hst⟩ := serRoot_ok (e := e) (a := a) (n := n) c (by rw [hraw]; exact hv)
  refine ⟨c', p, e1, fun h63 L base hbase hbl hL i hi hs => ⟨?_, ?_⟩⟩
  · unfold load
    rw [decide_eq_true ⟨by omega, by omega⟩, verify_true]
  · have h := hst i hi
    unfold Stands at h
    rw [if_neg (by simp [hs])] at h
    obtain ⟨s, g1, g2, g3, g4, g5, g6, g7⟩ := h
    rw [hconv] at g3
    have hs' : isShort L (base + (p + 16 * i)) = false := by
      unfold isShort
      rw [Nat.add_assoc, hL _ (by omega), g6]
      rfl
    have h8 : rd L (base + (p + 16 * i)) 8 = encI e.host ((s : Int) - (p + 16 * i : Nat)) := by
      rw [show encI e.host ((s : Int) - (p + 16 * i : Nat)) = rd c'.buf (p + 16 * i) 8 from g3.symm]
      refine rd_eq_iff.2 fun j hj => ?_
      rw [Nat.add_assoc]
      exact hL _ (by omega)
    have hN : rdN e.host L (base + (p + 16 * i)) 8 = s - (p + 16 * i) := by
      unfold rdN
      rw [h8, show ((s : Int) - (p + 16 * i : Nat)) = ((s - (p + 16 * i) : Nat) : Int) by omega]
      unfold encI
      rw [ofHost_hostBytes (toU64_lt _), toU64_ofNat (by omega)]
    refine ⟨s - (p + 16 * i), ?_, by omega⟩
    unfold data ptrAt
    rw [if_neg (by simp [hs']), if_pos rfl, hN, if_neg (by omega)]

theorem endianSwap_small : ∀ n, n < 256 → endianSwap 4 n = n * 2 ^ 24 := by decide +kernel

/-- With byte swapping the length of a long C string is not converted back: 20 characters become 20 * 2^24. -/
theorem swapped_violated {e : SEnv} {a n : Nat} (c : Ctx) (hconv : e.conv = true)
    (hv : ∀ i, i < n → Valid e.host e.raw e.mem (a + 16 * i)) :
    ∃ c' p, serRoot e a n c = .ok (c', p) ∧ (∀ L base, 8 ∣ base → Loaded c'.buf c'.len L base → ∀ i, i < n →
      isShort e.mem (a + 16 * i) = false → size e.host e.mem (a + 16 * i) < 256 → load base c'.len (p + 16 * i) = .ok () ∧
      size e.host L (base + (p + 16 * i)) = size e.host e.mem (a + 16 * i) * 2 ^ 24) := by
  obtain ⟨c', p, e1, hle, hd, hl, hf, hst⟩ := serRoot_ok (e := e) (a := a) (n := n) c hv
  refine ⟨c', p, e1, fun L base hbase hL i hi hs hsz => ⟨?_, ?_⟩⟩
  · unfold load
    rw [decide_eq_true ⟨by omega, by omega⟩, verify_true]
  · have h := hst i hi
    unfold Stands at h
    rw [if_neg (by simp [hs])] at h
    obtain ⟨s, g1, g2, g3, g4, g5, g6, g7⟩ := h
    rw [hconv] at g4
    have hs' : isShort L (base + (p + 16 * i)) = false := by
      unfold isShort
      rw [Nat.add_assoc, hL _ (by omega), g6]
      rfl
    have h4 : rd L (base + (p + 16 * i) + 8) 4 = (rd e.mem (a + 16 * i + 8) 4).reverse := by
      rw [show (rd e.mem (a + 16 * i + 8) 4).reverse = rd c'.buf (p + 16 * i + 8) 4 from g4.symm]
      refine rd_eq_iff.2 fun j hj => ?_
      rw [show base + (p + 16 * i) + 8 + j = base + (p + 16 * i + 8 + j) by omega]
      exact hL _ (by omega)
    unfold size at hsz ⊢
    rw [if_neg (by simp [hs])] at hsz
    rw [if_neg (by simp [hs']), if_neg (by simp [hs]), ← endianSwap_small _ hsz]
    unfold rdN at hsz ⊢
    rw [h4]
    have hrt := hostBytes_ofHost e.host (l := rd e.mem (a + 16 * i + 8) 4) (n := 4) (by simp)
    generalize ofHost e.host (rd e.mem (a + 16 * i + 8) 4) = v at hrt
    rw [← hrt]
    unfold endianSwap hostBytes ofHost
    cases e.host <;> simp

/-- Loading checks nothing inside a C string: a buffer whose string designates memory far behind it is accepted. -/
theorem unchecked_violated (base len : Nat) (hb : 8 ∣ base) (hl : 16 ≤ len) (h2 : base + len < 2 ^ 40) :
    ∃ buf : Mem, load base len 0 = .ok () ∧ ∀ L, Loaded buf len L base → isShort L base = false ∧ size .little L base = 1000 ∧
      ∃ q, data .little false L base = some q ∧ base + len < q := by
  refine ⟨fun x => ((encI .little (2 ^ 40)) ++ leBytes 4 1000 ++ [0#8, 0#8, 0#8, 255#8]).getD x 0#8, ?_, fun L hL => ?_⟩
  · unfold load
    rw [decide_eq_true ⟨by omega, by omega⟩, verify_true]
  · have h16 : ∀ k w, k + w ≤ 16 → rd L (base + k) w =
        rd (fun x => ((encI .little (2 ^ 40)) ++ leBytes 4 1000 ++ [0#8, 0#8, 0#8, 255#8]).getD x 0#8) k w := by
      intro k w hk
      refine rd_eq_iff.2 fun i hi => ?_
      rw [Nat.add_assoc]
      exact hL _ (by omega)
    have hs : isShort L base = false := by
      have := h16 15 1 (by decide)
      rw [rd_one] at this
      unfold isShort
      rw [List.head_eq_of_cons_eq this]
      decide
    refine ⟨hs, ?_, base + 2 ^ 40, ?_, by omega⟩
    · unfold size rdN
      rw [if_neg (by simp [hs]), h16 8 4 (by decide)]
      decide
    · have h8 := h16 0 8 (by decide)
      rw [Nat.add_zero] at h8
      have hd : decI .little (rd L base 8) = 2 ^ 40 := by rw [h8]; decide
      unfold data ptrAt
      rw [if_neg (by simp [hs]), if_neg Bool.false_ne_true, hd, if_neg (by decide), if_neg (by omega)]
      congr 1

end Cista.Ser.CString

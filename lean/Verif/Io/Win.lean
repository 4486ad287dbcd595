import Verif.Io.Stdio

/-!
# The file target of Windows

`targets/file.h:30-196`: the system calls name the place they read or write, there is no buffer; a call may fail or do a part of its work.
-/
set_option linter.unusedSimpArgs false

namespace Cista.Win

open Cista.Arith (Mode)
open Cista.Target (alignUp fwriteAt specOffset specBlock specPatch)
open Cista.Hash (HashT BASE_HASH fnv)
open Cista.Stdio (lim lim_le Call Ans specCall specCalls fwriteAt_nil fwriteAt_append)

/-- How the system answers the call number `k`: is it a success, how many bytes (`none`: all). -/
structure Dev where
  ok : Nat → Bool
  n : Nat → Option Nat

/-- The system does all it is asked for. -/
def Dev.Good (D : Dev) : Prop := ∀ k, D.ok k = true ∧ D.n k = none

/-- targets/file.h:193-194: the bytes of the file, `size_`; and the number of system calls so far. -/
structure W where
  disk : List Byte
  size : Nat
  k : Nat
  deriving DecidableEq

/-- targets/file.h:57-58. -/
def W.opened (disk : List Byte) : W := ⟨disk, disk.length, 0⟩

/-- `WriteFile` at `pos`, or (`none`: both halves of the offset `0xFFFFFFFF`) at the end of the file, with the tests that follow each call in
targets/file.h:140-143, 168-171, 181-184: did it throw? -/
def W.writeFile (D : Dev) (w : W) (pos : Option Nat) (bs : List Byte) : W × Bool :=
  let m := lim (D.n w.k) bs.length
  ({ w with disk := fwriteAt w.disk (pos.getD w.disk.length) (bs.take m), k := w.k + 1 }, D.ok w.k && decide (m = bs.length))

/-- targets/file.h:176-185: the blocks. -/
def W.blocks (D : Dev) (bs : List Byte) : List (Nat × Nat) → W → W × Bool
  | [], w => (w, true)
  | c :: cs, w =>
    let r := w.writeFile D none ((bs.drop c.1).take c.2)
    if r.2 then W.blocks D bs cs r.1 else (r.1, false)

/-- targets/file.h:158-173: the padding up to `curr`; its length is a `DWORD`. -/
def W.pad (D : Dev) (w : W) (curr : Nat) : W × Bool :=
  let n := (curr - w.size) % 2 ^ 32
  if n = 0 then (w, true)
  else if n < 16 then
    let r := w.writeFile D (some w.size) (List.replicate n 0#8)
    (if r.2 then { r.1 with size := curr } else r.1, r.2)
  else (w, false)

/-- targets/file.h:146-191 `write(ptr, size, alignment)`. No value: an exception was thrown. -/
def W.write (D : Dev) (w : W) (bs : List Byte) (al : Nat) : Res (W × Option Nat) :=
  let curr := if al ≠ 0 ∧ al ≠ 1 then alignUp w.size al else w.size
  let p := w.pad D curr
  if p.2 = false then .ok (p.1, none) else do
    let cs ← Hash.chunk 8192 bs.length
    let r := p.1.blocks D bs cs
    if r.2 then .ok ({ r.1 with size := p.1.size + bs.length }, some p.1.size) else .ok (r.1, none)

/-- targets/file.h:132-144 `write(pos, val)`. -/
def W.patch (D : Dev) (w : W) (pos : Nat) (bs : List Byte) : W × Option Unit :=
  let r := w.writeFile D (some pos) bs
  (r.1, if r.2 then some () else none)

/-- targets/file.h:115-128: the blocks of the checksum. -/
def W.sumLoop (D : Dev) (start : Nat) : List (Nat × Nat) → W → HashT → W × Option HashT
  | [], w, h => (w, some h)
  | c :: cs, w, h =>
    let bs := (w.disk.drop (start + c.1)).take (lim (D.n w.k) c.2)
    let w' := { w with k := w.k + 1 }
    if D.ok w.k && decide (bs.length = c.2) then W.sumLoop D start cs w' (fnv h bs) else (w', none)

/-- targets/file.h:111-130 `checksum(start)`; `size_ - start` wraps. -/
def W.checksum (D : Dev) (w : W) (start : Nat) : Res (W × Option HashT) := do
  let cs ← Hash.chunk (512 * 1024) ((w.size + 2 ^ 64 - start) % 2 ^ 64)
  .ok (w.sumLoop D start cs BASE_HASH)

/-- targets/file.h:83-90 `size()`. -/
def W.fileSize (w : W) : Nat := w.disk.length

/-- targets/file.h:98-106: the results of `ReadFile` are not looked at; bytes that were not read are what the memory of the buffer had. -/
def W.readBlocks (D : Dev) : List (Nat × Nat) → W → List Byte → W × List Byte
  | [], w, b => (w, b)
  | c :: cs, w, b =>
    let bs := if D.ok w.k then (w.disk.drop c.1).take (lim (D.n w.k) c.2) else []
    W.readBlocks D cs { w with k := w.k + 1 } (Target.overwrite b c.1 bs)

/-- targets/file.h:92-109 `content()`; `junk` is the memory of the new buffer. -/
def W.content (D : Dev) (w : W) (junk : Nat → Byte) : Res (W × List Byte) := do
  let cs ← Hash.chunk 8192 w.fileSize
  .ok (w.readBlocks D cs ((List.range w.fileSize).map junk))

def W.call (D : Dev) (w : W) : Call → Res (W × Option Ans)
  | .block bs al => do
    let r ← w.write D bs al
    .ok (r.1, r.2.map .off)
  | .patch pos bs =>
    let r := w.patch D pos bs
    .ok (r.1, r.2.map fun _ => .unit)
  | .sum start => do
    let r ← w.checksum D start
    .ok (r.1, r.2.map .hash)

/-- A history; the caller catches exceptions and goes on. -/
def W.run (D : Dev) : W → List Call → Res (W × List (Option Ans))
  | w, [] => .ok (w, [])
  | w, c :: cs => do
    let r ← w.call D c
    let q ← W.run D r.1 cs
    .ok (q.1, r.2 :: q.2)

/-! ## Lemmas -/

/-- The file has the bytes `c`. -/
structure W.Is (w : W) (c : List Byte) : Prop where
  disk : w.disk = c
  size : w.size = c.length

/-- A call is over without an exception and did what is specified, or it threw, on a system that is not good. -/
def Did (D : Dev) (w' : W) {α : Type} (r : Option α) (c' : List Byte) (a : α) : Prop := (r = none ∧ ¬ D.Good) ∨ (r = some a ∧ w'.Is c')

theorem fwriteAt_end (c bs : List Byte) : fwriteAt c c.length bs = c ++ bs := by
  unfold fwriteAt Target.overwrite
  by_cases h : bs = []
  · rw [if_pos h, h, List.append_nil]
  · rw [if_neg h, Nat.sub_self, List.replicate_zero, List.append_nil, List.take_length, List.drop_of_length_le (by omega), List.append_nil]

theorem writeFile_spec (D : Dev) (w : W) (pos : Option Nat) (bs : List Byte) :
    (w.writeFile D pos bs).1.size = w.size ∧ ((w.writeFile D pos bs).2 = false → ¬ D.Good) ∧
      ((w.writeFile D pos bs).2 = true → (w.writeFile D pos bs).1.disk = fwriteAt w.disk (pos.getD w.disk.length) bs) := by
  refine ⟨rfl, fun h hg => ?_, fun h => ?_⟩
  · unfold W.writeFile at h
    dsimp only at h
    rw [(hg _).1, (hg _).2] at h
    simp [lim] at h
  · unfold W.writeFile at h ⊢
    dsimp only at h ⊢
    have := of_decide_eq_true (Bool.and_eq_true_iff.1 h).2
    rw [this, List.take_length]

theorem blocks_spec (D : Dev) (bs : List Byte) {block : Nat} (hb : 0 < block) (rem off : Nat) (w : W) :
    ∃ cs, Hash.chunkLoop block off rem = .ok cs ∧ (w.blocks D bs cs).1.size = w.size ∧ ((w.blocks D bs cs).2 = false → ¬ D.Good) ∧
      ((w.blocks D bs cs).2 = true → (w.blocks D bs cs).1.disk = w.disk ++ (bs.drop off).take rem) := by
  induction rem using Nat.strongRecOn generalizing off w with
  | ind rem ih =>
    unfold Hash.chunkLoop
    by_cases hr : rem = 0
    · subst hr
      rw [dif_pos rfl]
      exact ⟨[], rfl, rfl, nofun, fun _ => by show w.disk = _; rw [List.take_zero, List.append_nil]⟩
    · rw [dif_neg hr, dif_neg (by omega)]
      obtain ⟨h1, h2, h3⟩ := writeFile_spec D w none ((bs.drop off).take (min rem block))
      generalize hw : w.writeFile D none ((bs.drop off).take (min rem block)) = q at h1 h2 h3
      obtain ⟨w1, ok⟩ := q
      obtain ⟨cs, e, g1, g2, g3⟩ := ih (rem - min rem block) (by omega) (off + min rem block) w1
      refine ⟨(off, min rem block) :: cs, by dsimp only; rw [e, ok_bind]; rfl, ?_⟩
      unfold W.blocks
      dsimp only
      rw [hw]
      cases ok with
      | false => exact ⟨h1, fun _ => h2 rfl, nofun⟩
      | true =>
        have h3 : w1.disk = _ := h3 rfl
        refine ⟨g1.trans h1, g2, fun ht => ?_⟩
        have g3 := g3 ht
        rw [h3, Option.getD_none, fwriteAt_end] at g3
        show (w1.blocks D bs cs).1.disk = _
        rw [g3, List.append_assoc, ← List.drop_drop, ← List.take_add, show min rem block + (rem - min rem block) = rem by omega]

theorem pad_spec (D : Dev) {w : W} {c : List Byte} (h : w.Is c) {curr : Nat} (h1 : c.length ≤ curr) (h2 : curr < c.length + 16) :
    ((w.pad D curr).2 = false → ¬ D.Good) ∧
      ((w.pad D curr).2 = true → (w.pad D curr).1.disk = c ++ List.replicate (curr - c.length) 0#8 ∧ (w.pad D curr).1.size = curr) := by
  unfold W.pad
  dsimp only
  rw [h.size, Nat.mod_eq_of_lt (by omega)]
  by_cases hn : curr - c.length = 0
  · rw [if_pos hn]
    refine ⟨nofun, fun _ => ⟨?_, ?_⟩⟩
    · rw [hn, List.replicate_zero, List.append_nil]
      exact h.disk
    · show w.size = curr
      rw [h.size]
      omega
  · rw [if_neg hn, if_pos (by omega)]
    obtain ⟨g1, g2, g3⟩ := writeFile_spec D w (some c.length) (List.replicate (curr - c.length) 0#8)
    generalize w.writeFile D (some c.length) (List.replicate (curr - c.length) 0#8) = q at g1 g2 g3
    obtain ⟨w1, ok⟩ := q
    refine ⟨g2, fun ht => ?_⟩
    have ht : ok = true := ht
    subst ht
    have g3 := g3 rfl
    rw [h.disk, Option.getD_some, fwriteAt_end] at g3
    exact ⟨g3, rfl⟩

theorem curr_eq (n al : Nat) : (if al ≠ 0 ∧ al ≠ 1 then alignUp n al else n) = specOffset n al := by
  unfold specOffset
  by_cases h : al ≤ 1
  · rw [if_pos h, if_neg (by omega)]
  · rw [if_neg h, if_pos (by omega), Target.alignUp_eq _ _ (by omega)]

theorem specOffset_lt (n al : Nat) (h : al ≤ 16) : specOffset n al < n + 16 := by
  unfold specOffset
  by_cases h1 : al ≤ 1
  · rw [if_pos h1]
    omega
  · rw [if_neg h1]
    have := Nat.mod_lt (al - n % al) (show 0 < al by omega)
    omega

theorem write_spec (D : Dev) (w : W) (bs : List Byte) (al : Nat) :
    ∃ w' r, w.write D bs al = .ok (w', r) ∧
      ∀ c, w.Is c → al ≤ 16 → Did D w' r (specBlock c bs al) (specOffset c.length al) := by
  unfold W.write
  dsimp only
  by_cases hp : (w.pad D (if al ≠ 0 ∧ al ≠ 1 then alignUp w.size al else w.size)).2 = false
  · rw [if_pos hp]
    refine ⟨_, _, rfl, fun c hc ha => .inl ⟨rfl, ?_⟩⟩
    rw [curr_eq, hc.size] at hp
    exact (pad_spec D hc (Target.specOffset_ge _ _) (specOffset_lt _ _ ha)).1 hp
  · rw [if_neg hp]
    obtain ⟨cs, e, g1, g2, g3⟩ := blocks_spec D bs (block := 8192) (by decide) bs.length 0
      (w.pad D (if al ≠ 0 ∧ al ≠ 1 then alignUp w.size al else w.size)).1
    have e : Hash.chunk 8192 bs.length = .ok cs := e
    rw [e, ok_bind]
    have hp : (w.pad D (if al ≠ 0 ∧ al ≠ 1 then alignUp w.size al else w.size)).2 = true := by simpa using hp
    rw [curr_eq] at hp g1 g2 g3 ⊢
    cases hb : ((w.pad D (specOffset w.size al)).1.blocks D bs cs).2 with
    | false => exact ⟨_, _, rfl, fun c hc ha => .inl ⟨rfl, g2 hb⟩⟩
    | true =>
      refine ⟨_, _, rfl, fun c hc ha => .inr ?_⟩
      rw [hc.size] at hp g3 ⊢
      obtain ⟨p1, p2⟩ := (pad_spec D hc (Target.specOffset_ge _ _) (specOffset_lt _ _ ha)).2 hp
      have hd := g3 (by rw [hc.size] at hb; exact hb)
      rw [p1, List.drop_zero, List.take_length] at hd
      refine ⟨by rw [p2], hd, ?_⟩
      show (w.pad D _).1.size + bs.length = _
      rw [p2, Target.length_specBlock]

theorem patch_spec (D : Dev) (w : W) (pos : Nat) (bs : List Byte) (c : List Byte) (hc : w.Is c) (hp : pos + bs.length ≤ c.length) :
    Did D (w.patch D pos bs).1 (w.patch D pos bs).2 (specPatch c pos bs) () := by
  unfold W.patch
  dsimp only
  obtain ⟨g1, g2, g3⟩ := writeFile_spec D w (some pos) bs
  generalize w.writeFile D (some pos) bs = q at g1 g2 g3
  obtain ⟨w1, ok⟩ := q
  cases ok with
  | false => exact .inl ⟨rfl, g2 rfl⟩
  | true =>
    refine .inr ⟨rfl, ?_, ?_⟩
    · have g3 := g3 rfl
      rw [hc.disk, Option.getD_some] at g3
      exact g3.trans (congrArg Target.File.content (Target.filePatch_spec ⟨c, c.length⟩ pos bs hp))
    · have g1 : w1.size = w.size := g1
      show w1.size = _
      rw [g1, hc.size]
      simp [specPatch]

theorem sumLoop_spec (D : Dev) (start : Nat) {block : Nat} (hb : 0 < block) (rem off : Nat) (w : W) (h : HashT) :
    ∃ cs, Hash.chunkLoop block off rem = .ok cs ∧ (w.sumLoop D start cs h).1.disk = w.disk ∧ (w.sumLoop D start cs h).1.size = w.size ∧
      (start + off + rem ≤ w.disk.length → ((w.sumLoop D start cs h).2 = none ∧ ¬ D.Good) ∨
        (w.sumLoop D start cs h).2 = some (fnv h ((w.disk.drop (start + off)).take rem))) := by
  induction rem using Nat.strongRecOn generalizing off w h with
  | ind rem ih =>
    unfold Hash.chunkLoop
    by_cases hr : rem = 0
    · subst hr
      rw [dif_pos rfl]
      exact ⟨[], rfl, rfl, rfl, fun _ => .inr (by show some h = _; rw [List.take_zero]; rfl)⟩
    · rw [dif_neg hr, dif_neg (by omega)]
      obtain ⟨cs, e, g1, g2, g3⟩ := ih (rem - min rem block) (by omega) (off + min rem block) { w with k := w.k + 1 }
        (fnv h ((w.disk.drop (start + off)).take (lim (D.n w.k) (min rem block))))
      refine ⟨(off, min rem block) :: cs, by dsimp only; rw [e, ok_bind]; rfl, ?_⟩
      unfold W.sumLoop
      dsimp only
      by_cases ht : (D.ok w.k && decide (((w.disk.drop (start + off)).take (lim (D.n w.k) (min rem block))).length = min rem block)) = true
      · rw [if_pos ht]
        refine ⟨g1, g2, fun hle => ?_⟩
        have hl := of_decide_eq_true (Bool.and_eq_true_iff.1 ht).2
        rw [List.length_take] at hl
        have := lim_le (D.n w.k) (min rem block)
        have hlim : lim (D.n w.k) (min rem block) = min rem block := by omega
        have g3 := g3 (by show _ ≤ w.disk.length; omega)
        rw [hlim] at g3 ⊢
        have e2 : fnv (fnv h ((w.disk.drop (start + off)).take (min rem block))) ((w.disk.drop (start + (off + min rem block))).take (rem - min rem block))
            = fnv h ((w.disk.drop (start + off)).take rem) := by
          rw [← Hash.fnv_append, ← Nat.add_assoc, ← List.drop_drop (i := min rem block), ← List.take_add, show min rem block + (rem - min rem block) = rem by omega]
        rw [← e2]
        exact g3
      · rw [if_neg ht]
        refine ⟨rfl, rfl, fun hle => .inl ⟨rfl, fun hg => ht ?_⟩⟩
        rw [(hg _).1, (hg _).2, Bool.true_and]
        apply decide_eq_true
        show ((w.disk.drop (start + off)).take (min rem block)).length = _
        rw [List.length_take, List.length_drop]
        omega

theorem sum_spec (D : Dev) (w : W) (start : Nat) :
    ∃ w' r, w.checksum D start = .ok (w', r) ∧
      ∀ c, w.Is c → c.length < 2 ^ 64 → start ≤ c.length → Did D w' r c (fnv BASE_HASH (c.drop start)) := by
  unfold W.checksum
  obtain ⟨cs, e, g1, g2, g3⟩ := sumLoop_spec D start (block := 512 * 1024) (by decide) ((w.size + 2 ^ 64 - start) % 2 ^ 64) 0 w BASE_HASH
  have e : Hash.chunk (512 * 1024) ((w.size + 2 ^ 64 - start) % 2 ^ 64) = .ok cs := e
  rw [e, ok_bind]
  refine ⟨_, _, rfl, fun c hc h64 hs => ?_⟩
  rw [hc.size, hc.disk, show c.length + 2 ^ 64 - start = c.length - start + 2 ^ 64 by omega, Nat.add_mod_right,
    Nat.mod_eq_of_lt (by omega)] at g3
  rcases g3 (by omega) with h | h
  · exact .inl h
  · refine .inr ⟨?_, g1.trans hc.disk, g2.trans hc.size⟩
    rw [h, Nat.add_zero, List.take_of_length_le (by rw [List.length_drop]; omega)]

/-! ## C123 -/

/-- The calls a Windows file is good for: alignments up to 16. -/
def Call.Ok : Call → Prop
  | .block _ al => al ≤ 16
  | _ => True

theorem call_spec (D : Dev) (w : W) (x : Call) :
    ∃ w' r, w.call D x = .ok (w', r) ∧
      ∀ c, w.Is c → c.length < 2 ^ 64 → Call.Ok x → ∀ c' a, specCall c x = some (c', a) → Did D w' r c' a := by
  cases x with
  | block bs al =>
    obtain ⟨w', r, e, h⟩ := write_spec D w bs al
    refine ⟨w', r.map .off, by show (do let r ← w.write D bs al; .ok (r.1, r.2.map Ans.off)) = _; rw [e, ok_bind], fun c hc _ ha c' a hs => ?_⟩
    have hs : (if bs = [] ∧ 1 < al then none else some (specBlock c bs al, Ans.off (specOffset c.length al))) = some (c', a) := hs
    split at hs
    · cases hs
    · cases hs
      rcases h c hc ha with ⟨h, g⟩ | ⟨h, g⟩
      · exact .inl ⟨by rw [h]; rfl, g⟩
      · exact .inr ⟨by rw [h]; rfl, g⟩
  | patch pos bs =>
    refine ⟨(w.patch D pos bs).1, (w.patch D pos bs).2.map fun _ => .unit, rfl, fun c hc _ _ c' a hs => ?_⟩
    have hs : (if pos + bs.length ≤ c.length then some (specPatch c pos bs, Ans.unit) else none) = some (c', a) := hs
    split at hs
    · cases hs
      rcases patch_spec D w pos bs c hc (by assumption) with ⟨h, g⟩ | ⟨h, g⟩
      · exact .inl ⟨by rw [h]; rfl, g⟩
      · exact .inr ⟨by rw [h]; rfl, g⟩
    · cases hs
  | sum start =>
    obtain ⟨w', r, e, h⟩ := sum_spec D w start
    refine ⟨w', r.map .hash, by show (do let r ← w.checksum D start; .ok (r.1, r.2.map Ans.hash)) = _; rw [e, ok_bind], fun c hc h64 _ c' a hs => ?_⟩
    have hs : (if start ≤ c.length then some (c, Ans.hash (fnv BASE_HASH (c.drop start))) else none) = some (c', a) := hs
    split at hs
    · cases hs
      rcases h c hc h64 (by assumption) with ⟨h, g⟩ | ⟨h, g⟩
      · exact .inl ⟨by rw [h]; rfl, g⟩
      · exact .inr ⟨by rw [h]; rfl, g⟩
    · cases hs

theorem specCall_len {c c' : List Byte} {x : Call} {a : Ans} (h : specCall c x = some (c', a)) : c.length ≤ c'.length := by
  cases x with
  | block bs al =>
    have h : (if bs = [] ∧ 1 < al then none else some (specBlock c bs al, Ans.off (specOffset c.length al))) = some (c', a) := h
    split at h
    · cases h
    · cases h
      rw [Target.length_specBlock]
      have := Target.specOffset_ge c.length al
      omega
  | patch pos bs =>
    have h : (if pos + bs.length ≤ c.length then some (specPatch c pos bs, Ans.unit) else none) = some (c', a) := h
    split at h
    · cases h
      simp [specPatch]
    · cases h
  | sum start =>
    have h : (if start ≤ c.length then some (c, Ans.hash (fnv BASE_HASH (c.drop start))) else none) = some (c', a) := h
    split at h
    · cases h
      exact Nat.le_refl _
    · cases h

theorem specCalls_len : ∀ {cs : List Call} {c out : List Byte} {as : List Ans}, specCalls c cs = some (out, as) → c.length ≤ out.length
  | [], c, out, as, h => by cases h; exact Nat.le_refl _
  | x :: cs, c, out, as, h => by
    unfold specCalls at h
    cases hx : specCall c x with
    | none => rw [hx] at h; cases h
    | some q =>
      obtain ⟨c', a⟩ := q
      rw [hx] at h
      have h : (specCalls c' cs).bind (fun q => some (q.1, a :: q.2)) = some (out, as) := h
      cases hy : specCalls c' cs with
      | none => rw [hy] at h; cases h
      | some q =>
        rw [hy] at h
        cases h
        exact Nat.le_trans (specCall_len hx) (specCalls_len hy)

theorem run_ok (D : Dev) : ∀ (cs : List Call) (w : W),
    ∃ w' rs, w.run D cs = .ok (w', rs) ∧ rs.length = cs.length ∧
      ∀ c, w.Is c → (∀ x ∈ cs, Call.Ok x) → ∀ out as, specCalls c cs = some (out, as) → out.length < 2 ^ 64 →
        (∀ n, (∀ i, i < n → rs[i]? ≠ some none) → rs.take n = (as.take n).map some) ∧ (D.Good → none ∉ rs) ∧ (none ∉ rs → w'.Is out)
  | [], w => ⟨w, [], rfl, rfl, fun c hc _ out as h _ => by
      cases h
      exact ⟨fun n _ => by simp, fun _ => List.not_mem_nil, fun _ => hc⟩⟩
  | x :: cs, w => by
    obtain ⟨w1, r, e, h3⟩ := call_spec D w x
    obtain ⟨w', rs, e', g2, g3⟩ := run_ok D cs w1
    refine ⟨w', r :: rs, by unfold W.run; rw [e, ok_bind, e', ok_bind], by simp [g2], fun c hc ha out as h h64 => ?_⟩
    have hlen := specCalls_len h
    unfold specCalls at h
    cases hx : specCall c x with
    | none => rw [hx] at h; cases h
    | some q =>
      obtain ⟨c', a⟩ := q
      rw [hx] at h
      have h : (specCalls c' cs).bind (fun q => some (q.1, a :: q.2)) = some (out, as) := h
      cases hy : specCalls c' cs with
      | none => rw [hy] at h; cases h
      | some q =>
        rw [hy] at h
        cases h
        rcases h3 c hc (by omega) (ha x (List.mem_cons_self ..)) c' a hx with ⟨hr, hg⟩ | ⟨hr, hi⟩
        · subst hr
          refine ⟨fun n hn => ?_, fun h => absurd h hg, fun h => absurd (List.mem_cons_self ..) h⟩
          cases n with
          | zero => rfl
          | succ n => exact absurd rfl (hn 0 (by omega))
        · subst hr
          obtain ⟨k1, k2, k3⟩ := g3 c' hi (fun y hy => ha y (List.mem_cons_of_mem _ hy)) q.1 q.2 hy h64
          refine ⟨fun n hn => ?_, fun hg h => ?_, fun h => k3 fun h' => h (List.mem_cons_of_mem _ h')⟩
          · cases n with
            | zero => rfl
            | succ n =>
              rw [List.take_succ_cons, List.take_succ_cons, List.map_cons, k1 n fun i hi => hn (i + 1) (by omega)]
          · rcases List.mem_cons.1 h with h | h
            · cases h
            · exact k2 hg h

/-- **C123** The Windows file target, where any system call may fail or do a part of its work: no history of calls with alignments up to 16 has
undefined behaviour; up to the first exception every call returns what the specification says (the same as for POSIX, C121); on a system without
failures there is none; and if there was no exception the file has exactly the specified bytes.  (Larger alignments and calls
after an exception: C124.) -/
theorem C123_calls (D : Dev) (disk : List Byte) (cs : List Call) :
    ∃ w rs, (W.opened disk).run D cs = .ok (w, rs) ∧ rs.length = cs.length ∧
      ((∀ x ∈ cs, Call.Ok x) → ∀ out as, specCalls disk cs = some (out, as) → out.length < 2 ^ 64 →
        (∀ n, (∀ i, i < n → rs[i]? ≠ some none) → rs.take n = (as.take n).map some) ∧
        (D.Good → none ∉ rs) ∧ (none ∉ rs → w.disk = out ∧ w.size = out.length)) := by
  obtain ⟨w, rs, e, hl, h⟩ := run_ok D cs (.opened disk)
  refine ⟨w, rs, e, hl, fun ha out as hs h64 => ?_⟩
  obtain ⟨h1, h2, h3⟩ := h disk ⟨rfl, rfl⟩ ha out as hs h64
  exact ⟨h1, h2, fun hn => ⟨(h3 hn).disk, (h3 hn).size⟩⟩

/-- Everything works. -/
def calm : Dev := ⟨fun _ => true, fun _ => none⟩

/-- The first call writes two bytes only. -/
def hiccup : Dev := ⟨fun _ => true, fun k => if k = 0 then some 2 else none⟩

example : ∃ w, (W.opened []).run calm [.block [1, 2, 3] 0, .block [4] 4, .patch 1 [9], .sum 0] =
      .ok (w, [some (.off 0), some (.off 4), some .unit, some (.hash (fnv BASE_HASH [1, 9, 3, 0, 4]))]) ∧
    w.disk = [1, 9, 3, 0, 4] := by
  obtain ⟨w, rs, e, hl, h⟩ := C123_calls calm [] [.block [1, 2, 3] 0, .block [4] 4, .patch 1 [9], .sum 0]
  obtain ⟨h1, h2, h3⟩ := h (by simp [Call.Ok]) [1, 9, 3, 0, 4] _ rfl (by decide)
  have hn := h2 fun _ => ⟨rfl, rfl⟩
  have h4 := h1 4 fun i hi e => hn (List.mem_of_getElem? e)
  rw [List.take_of_length_le (by rw [hl]; decide)] at h4
  exact ⟨w, by rw [e, h4]; rfl, (h3 hn).1⟩

/-- **C124 (partial)** For alignments up to 16 and systems without failures, the file targets of Windows and POSIX return the same and leave the same
bytes.  Missing: larger alignments (`C124_overaligned_violated`, `C124_serialize_violated`), failing systems (`C124_retry_violated`,
`C124_content_violated`). -/
theorem C124_agree_partial (D : Dev) (E : Stdio.Dev) (hD : D.Good) (hE : E.Good) {block : Nat} (hb : 0 < block) (disk : List Byte) (cs : List Call)
    (ha : ∀ x ∈ cs, Call.Ok x) (out : List Byte) (as : List Ans) (hs : specCalls disk cs = some (out, as)) (h64 : out.length < 2 ^ 64) :
    ∃ w f rs, (W.opened disk).run D cs = .ok (w, rs) ∧ (Stdio.F.opened disk).run E block cs = .ok (f, rs) ∧ w.size = f.size ∧
      ((f.s.close E).2 = true → w.disk = f.destroy E) := by
  obtain ⟨w, rs, e, hl, h⟩ := C123_calls D disk cs
  obtain ⟨f, rs', e', hl', h'⟩ := Stdio.C121_calls E hb disk cs
  obtain ⟨h1, h2, h3⟩ := h ha out as hs h64
  obtain ⟨k1, k2, k3⟩ := h' out as hs
  have hn := h2 hD
  have hn' := k2 hE
  have h4 := h1 cs.length fun i _ e => hn (List.mem_of_getElem? e)
  have k4 := k1 cs.length fun i _ e => hn' (List.mem_of_getElem? e)
  rw [← k4, List.take_of_length_le (by omega), List.take_of_length_le (by omega)] at h4
  subst h4
  refine ⟨w, f, rs, e, e', (h3 hn).2.trans (k3 hn).1.symm, fun hc => ?_⟩
  rw [(k3 hn).2 hc, (h3 hn).1]

example : ∃ w f rs, (W.opened []).run calm [.block [1, 2, 3] 0, .block [4] 16] = .ok (w, rs) ∧
    (Stdio.F.opened []).run Stdio.calm 512 [.block [1, 2, 3] 0, .block [4] 16] = .ok (f, rs) ∧ w.size = f.size := by
  obtain ⟨w, f, rs, h1, h2, h3, _⟩ := C124_agree_partial calm Stdio.calm (fun _ => ⟨rfl, rfl⟩) (fun _ => ⟨rfl, rfl, rfl⟩) (block := 512) (by decide) []
    [.block [1, 2, 3] 0, .block [4] 16] (by simp [Call.Ok]) _ _ rfl (by decide)
  exact ⟨w, f, rs, h1, h2, h3⟩

/-- **C124 (violated)** The padding comes from an array of 16 bytes, more than 15 are refused: no block with an alignment that asks for them can be
written, on any system and in any state. -/
theorem C124_overaligned_violated (D : Dev) (w : W) (bs : List Byte) {al : Nat} (hal : al ≤ 2 ^ 32) (h0 : w.size % al ≠ 0) (h16 : w.size % al + 16 ≤ al) :
    w.write D bs al = .ok (w, none) := by
  have e : alignUp w.size al = w.size + (al - w.size % al) % al := Target.alignUp_eq _ _ (by omega)
  have h1 : (al - w.size % al) % al = al - w.size % al := Nat.mod_eq_of_lt (by omega)
  rw [h1] at e
  have hp : w.pad D (alignUp w.size al) = (w, false) := by
    unfold W.pad
    rw [e, show w.size + (al - w.size % al) - w.size = al - w.size % al by omega, Nat.mod_eq_of_lt (by omega)]
    dsimp only
    rw [if_neg (by omega), if_neg (by omega)]
  have hc : (if al ≠ 0 ∧ al ≠ 1 then alignUp w.size al else w.size) = alignUp w.size al := if_pos ⟨by omega, by omega⟩
  unfold W.write
  simp only [hc, hp]
  rfl

example : (⟨[1, 2, 3, 4, 5, 6, 7, 8], 8, 0⟩ : W).write calm [9] 32 = .ok (⟨[1, 2, 3, 4, 5, 6, 7, 8], 8, 0⟩, none) ∧
    specCall [1, 2, 3, 4, 5, 6, 7, 8] (.block [9] 32) = some ([1, 2, 3, 4, 5, 6, 7, 8] ++ List.replicate 24 0 ++ [9], .off 32) :=
  ⟨C124_overaligned_violated calm _ _ (by decide) (by decide) (by decide), rfl⟩

/-- **C124 (violated)** A write throws after `n` of its bytes; the next one returns the offset of the first, but its bytes are `n` later.  For every file and
all bytes of one block, if everything else works. -/
theorem C124_retry_violated (D : Dev) (n : Nat) (disk bs bs' : List Byte) (h0 : D.n 0 = some n) (hn : n < bs.length) (hb : bs.length ≤ 8192)
    (h1 : D.ok 1 = true ∧ D.n 1 = none) (hb' : 0 < bs'.length ∧ bs'.length ≤ 8192) :
    ∃ w, (W.opened disk).run D [.block bs 0, .block bs' 0] = .ok (w, [none, some (.off disk.length)]) ∧ w.disk = disk ++ bs.take n ++ bs' := by
  have hc : ∀ m, 0 < m → m ≤ 8192 → Hash.chunk 8192 m = .ok [(0, m)] := by
    intro m hm hm'
    unfold Hash.chunk Hash.chunkLoop
    rw [dif_neg (by omega), dif_neg (by omega), Nat.min_eq_left hm']
    dsimp only
    unfold Hash.chunkLoop
    rw [dif_pos (by omega), ok_bind]
    rfl
  have e1 : (W.opened disk).write D bs 0 = .ok (⟨disk ++ bs.take n, disk.length, 1⟩, none) := by
    simp [W.write, W.opened, W.pad, hc _ (show 0 < bs.length by omega) hb, ok_bind, W.blocks, W.writeFile, lim, h0, fwriteAt_end,
      Nat.min_eq_left (Nat.le_of_lt hn), Nat.ne_of_lt hn]
  have e2 : (⟨disk ++ bs.take n, disk.length, 1⟩ : W).write D bs' 0 =
      .ok (⟨disk ++ bs.take n ++ bs', disk.length + bs'.length, 2⟩, some disk.length) := by
    have hw := fwriteAt_end (disk ++ bs.take n) bs'
    simp only [W.write, W.pad, hc _ hb'.1 hb'.2, ok_bind, W.blocks, W.writeFile, lim, h1.1, h1.2, ne_eq, not_true_eq_false, false_and, if_false,
      Nat.sub_self, Nat.zero_mod, if_true, reduceCtorEq, List.drop_zero, List.take_length, Option.getD_none, hw, decide_true, Bool.and_self,
      Nat.reduceAdd]
  exact ⟨_, by simp only [W.run, W.call, e1, e2, ok_bind, Option.map_none, Option.map_some]; rfl, rfl⟩

example : ∃ w, (W.opened []).run hiccup [.block [1, 2, 3] 0, .block [7] 0] = .ok (w, [none, some (.off 0)]) ∧ w.disk = [1, 2, 7] :=
  C124_retry_violated hiccup 2 [] [1, 2, 3] [7] (by rfl) (by decide) (by decide) (by decide) (by decide)

/-! ## Reading -/

theorem readBlocks_spec (D : Dev) (hg : D.Good) {block : Nat} (hb : 0 < block) (rem off : Nat) (w : W) (b : List Byte)
    (h1 : off + rem = w.disk.length) (h2 : b.length = w.disk.length) (h3 : b.take off = w.disk.take off) :
    ∃ cs, Hash.chunkLoop block off rem = .ok cs ∧ (w.readBlocks D cs b).2 = w.disk := by
  induction rem using Nat.strongRecOn generalizing off w b with
  | ind rem ih =>
    unfold Hash.chunkLoop
    by_cases hr : rem = 0
    · subst hr
      rw [dif_pos rfl]
      refine ⟨[], rfl, ?_⟩
      rw [List.take_of_length_le (by omega), List.take_of_length_le (by omega)] at h3
      exact h3
    · rw [dif_neg hr, dif_neg (by omega)]
      have hbl : ((w.disk.drop off).take (min rem block)).length = min rem block := by rw [List.length_take, List.length_drop]; omega
      obtain ⟨cs, e, g⟩ := ih (rem - min rem block) (by omega) (off + min rem block) { w with k := w.k + 1 }
        (Target.overwrite b off ((w.disk.drop off).take (min rem block))) (by show _ = w.disk.length; omega)
        (by rw [Target.length_overwrite _ _ _ (by omega)]; exact h2) (by
          show _ = w.disk.take _
          unfold Target.overwrite
          rw [List.take_left' (by rw [List.length_append, List.length_take, hbl]; omega), h3, List.take_add])
      refine ⟨(off, min rem block) :: cs, by dsimp only; rw [e, ok_bind]; rfl, ?_⟩
      unfold W.readBlocks
      dsimp only
      rw [(hg _).1, (hg _).2]
      exact g

/-- **C123** On a system without failures `content()` gives the bytes of the file, at any time, whatever the memory of the new buffer had. (A failing system: C124.) -/
theorem C123_content (D : Dev) (hg : D.Good) (w : W) (junk : Nat → Byte) : ∃ w', w.content D junk = .ok (w', w.disk) := by
  unfold W.content
  obtain ⟨cs, e, h⟩ := readBlocks_spec D hg (block := 8192) (by decide) w.disk.length 0 w ((List.range w.disk.length).map junk) (by omega) (by simp)
    (by rw [List.take_zero, List.take_zero])
  have e : Hash.chunk 8192 w.fileSize = .ok cs := e
  rw [e, ok_bind]
  exact ⟨_, congrArg Except.ok (Prod.ext rfl h)⟩

example : ∃ w', (W.opened [1, 2, 3]).content calm (fun _ => 0xaa) = .ok (w', [1, 2, 3]) :=
  C123_content calm (fun _ => ⟨rfl, rfl⟩) _ _

theorem readBlocks_fail (D : Dev) (hf : ∀ k, D.ok k = false) (cs : List (Nat × Nat)) (w : W) (b : List Byte) : (w.readBlocks D cs b).2 = b := by
  induction cs generalizing w b with
  | nil => rfl
  | cons c cs ih =>
    unfold W.readBlocks
    dsimp only
    rw [hf, ih]
    simp [Target.overwrite]

/-- **C124 (violated)** `content()` ignores the result of `ReadFile`: if reading fails, it returns what the memory had before, without an exception, for
every file. -/
theorem C124_content_violated (D : Dev) (hf : ∀ k, D.ok k = false) (w : W) (junk : Nat → Byte) :
    ∃ w', w.content D junk = .ok (w', (List.range w.disk.length).map junk) := by
  unfold W.content
  obtain ⟨cs, e, -⟩ := readBlocks_spec calm (fun _ => ⟨rfl, rfl⟩) (block := 8192) (by decide) w.disk.length 0 w ((List.range w.disk.length).map junk)
    (by omega) (by simp) (by rw [List.take_zero, List.take_zero])
  have e : Hash.chunk 8192 w.fileSize = .ok cs := e
  rw [e, ok_bind]
  exact ⟨_, congrArg Except.ok (Prod.ext rfl (readBlocks_fail D hf cs w _))⟩

example : ∃ w', (W.opened [1, 2, 3]).content ⟨fun _ => false, fun _ => some 0⟩ (fun i => .ofNat 8 (i + 100)) = .ok (w', [100, 101, 102]) :=
  C124_content_violated _ (fun _ => rfl) _ _

end Cista.Win

namespace Cista.Ser

open Cista.Arith (Mode)
open Cista.Hash (HashT)

/-- The Windows file as a target of `serialize`; an exception leaves `serialize`. -/
def winT (D : Win.Dev) : Tgt Win.W where
  put w bs al := do
    let r ← w.write D bs al
    match r.2 with
    | some o => .ok (r.1, o)
    | none => .error .exn
  patch w pos bs :=
    let r := w.patch D pos bs
    match r.2 with
    | some _ => .ok r.1
    | none => .error .exn
  sum w start := do
    let r ← w.checksum D start
    match r.2 with
    | some h => .ok (r.1, h)
    | none => .error .exn

theorem winT_may (D : Win.Dev) {B : Nat} (hB : B < 2 ^ 64) :
    (winT D).May (fun w len buf => w.Is (rd buf 0 len) ∧ len ≤ B) (fun z => z = .exn ∧ ¬ D.Good) 16 B where
  put := by
    intro w len buf bs al r hz hal hne hlen
    obtain ⟨w', q, e, h3⟩ := Win.write_spec D w bs al
    have ha : al ≤ 16 := by
      rcases hal with h | h
      · omega
      · exact Nat.le_of_dvd (by decide) h
    rcases h3 _ r.1 ha with ⟨h, g⟩ | ⟨h, g⟩
    · exact .inl ⟨.exn, by show (do let r ← w.write D bs al; _) = _; rw [e, ok_bind, h], rfl, g⟩
    · refine .inr ⟨w', ?_, ?_, hlen⟩
      · show (do let r ← w.write D bs al; _) = _
        rw [e, ok_bind, h, length_rd, specOffset_eq]
      · rw [← specBlock_eq hz]
        exact g
  patch := by
    intro w len buf pos bs r hz hp
    rcases Win.patch_spec D w pos bs _ r.1 (by rw [length_rd]; exact hp) with ⟨h, g⟩ | ⟨h, g⟩
    · exact .inl ⟨.exn, by show (match (w.patch D pos bs).2 with | some _ => Except.ok (w.patch D pos bs).1 | none => Except.error Err.exn) = _; rw [h], rfl, g⟩
    · refine .inr ⟨_, by show (match (w.patch D pos bs).2 with | some _ => Except.ok (w.patch D pos bs).1 | none => Except.error Err.exn) = _; rw [h], ?_, r.2⟩
      rw [rd_over hp, Target.overwrite_eq_specPatch _ _ _ (by rw [length_rd]; exact hp)]
      exact g
  sum := by
    intro w len buf start h r hs hh
    obtain ⟨w', q, e, h3⟩ := Win.sum_spec D w start
    have hh' : h = Hash.fnv Hash.BASE_HASH ((rd buf 0 len).drop start) := by
      unfold Hash.bufChecksum at hh
      rw [decide_eq_true (by rw [length_rd]; exact hs), require_true, ok_bind] at hh
      cases hh
      rfl
    rcases h3 _ r.1 (by rw [length_rd]; have := r.2; omega) (by rw [length_rd]; omega) with ⟨h, g⟩ | ⟨h, g⟩
    · exact .inl ⟨.exn, by show (do let r ← w.checksum D start; _) = _; rw [e, ok_bind, h], rfl, g⟩
    · exact .inr ⟨w', by show (do let r ← w.checksum D start; _) = _; rw [e, ok_bind, h, hh'], g, r.2⟩

/-- **C123** `serialize` of a type with alignments that divide 16 into a Windows file throws, or the file has exactly the bytes that `serialize`
produces in memory (and on POSIX, C83); on a system without failures it does not throw. -/
theorem C123_serialize {host : Endian} {raw : Bool} {m : Mode} {th sh : HashT} {mem : Mem} {t : Ty} {a : Nat}
    (hs : Source host raw m mem t a) (ha : t.Al 16) :
    ∃ bytes, serialize host raw m th sh mem t a = .ok bytes ∧
      (bytes.length < 2 ^ 64 → ∀ (D : Win.Dev),
        (serializeT (winT D) host raw m th sh mem t a (.opened []) = .error .exn ∧ ¬ D.Good) ∨
        ∃ w, serializeT (winT D) host raw m th sh mem t a (.opened []) = .ok w ∧ w.disk = bytes ∧ w.size = bytes.length) := by
  obtain ⟨bytes, h1, _, _⟩ := C83_targets_agree (th := th) (sh := sh) hs
  refine ⟨bytes, h1, fun h64 D => ?_⟩
  rcases serializeT_may (winT_may D h64) (s := .opened []) ⟨⟨rfl, rfl⟩, Nat.zero_le _⟩ hs.wf ha h1 (Nat.le_refl _) with
    ⟨z, e, hz, hg⟩ | ⟨w, buf, e, ⟨hi, _⟩, hr, _⟩
  · exact .inl ⟨by rw [e, hz], hg⟩
  · rw [hr] at hi
    exact .inr ⟨w, e, hi.disk, hi.size⟩

example : ∃ bytes w, bytes.length = 84 ∧
    serializeT (winT Win.calm) .little false demoMode 17#64 23#64 demoMem demoRoot 64 (.opened []) = .ok w ∧ w.disk = bytes := by
  obtain ⟨bytes, h1, h2⟩ := C123_serialize (th := 17#64) (sh := 23#64) (demo_source demoMode (by decide) (by decide)) (demo_al 16 (by decide))
  have hl := demo_len
  rw [h1] at hl
  have hl : bytes.length = 84 := hl
  rcases h2 (by omega) Win.calm with ⟨_, hg⟩ | ⟨w, e, hz, _⟩
  · exact absurd (fun _ => ⟨rfl, rfl⟩) hg
  · exact ⟨bytes, w, hl, e, hz⟩

/-- **C124 (violated)** A type with alignment 32 behind the version word cannot be serialized into a Windows file, on a POSIX system it can
(`C44_targets_differ_violated`). -/
theorem C124_serialize_violated : serializeT (winT Win.calm) .little false Mode.WITH_VERSION 17#64 23#64 (fun _ => 1#8) (.blob 32 32) 64
    (.opened []) = .error .exn := by
  have h : (match serializeT (winT Win.calm) .little false Mode.WITH_VERSION 17#64 23#64 (fun _ => 1#8) (.blob 32 32) 64 (.opened []) with
    | .error .exn => true
    | _ => false) = true := by decide +kernel
  split at h
  · assumption
  · cases h

end Cista.Ser

import Verif.Io.Props

/-!
# The file target on a system that fails

`targets/file.h` (POSIX) with the calls of `<cstdio>` it makes: a stream has a buffer, its bytes reach the file when the library pleases, a seek or a
closing writes the rest, and every call may fail or do only a part of its work.  How the system behaves is given by a `Dev`, over which all
theorems quantify.
-/
set_option linter.unusedSimpArgs false

namespace Cista.Stdio

open Cista.Arith (Mode)
open Cista.Target (alignUp fwriteAt overwrite specOffset specBlock specPatch fileWrite filePatch)
open Cista.Hash (HashT BASE_HASH fnv)

/-! ## Streams -/

/-- How the system answers the call number `k`: does a seek succeed, how many bytes does `fwrite` take, how many of the buffered bytes reach
the file, does a failed seek leave the others in the buffer, how many bytes does `fread` get (`none`: all). -/
structure Dev where
  seek : Nat → Bool
  take : Nat → Option Nat
  out : Nat → Option Nat
  keep : Nat → Bool
  got : Nat → Option Nat

/-- A part of `n`. -/
def lim : Option Nat → Nat → Nat
  | none, n => n
  | some m, n => min m n

/-- What the stream did last: C11 7.21.5.3p7 forbids input directly after output and output directly after input. -/
inductive Dir where
  | none
  | rd
  | wr
  deriving DecidableEq

/-- A `FILE` opened for update: the bytes of the file, the bytes in the buffer with their place, the position, the direction, the number of
calls so far. -/
structure Stream where
  disk : List Byte
  at_ : Nat
  pend : List Byte
  pos : Nat
  dir : Dir
  k : Nat

/-- The first `n` bytes of the buffer go to the file. -/
def Stream.drain (s : Stream) (n : Nat) : Stream :=
  { s with disk := fwriteAt s.disk s.at_ (s.pend.take n), at_ := s.at_ + (s.pend.take n).length, pend := s.pend.drop n }

/-- `fseek(f, p, SEEK_SET)` (`some p`) or `fseek(f, 0, SEEK_END)` (`none`): writes the buffer to the file first. -/
def Stream.fseek (D : Dev) (s : Stream) (dst : Option Nat) : Stream × Bool :=
  if D.seek s.k then
    let d := s.drain s.pend.length
    ({ d with pos := dst.getD d.disk.length, dir := .none, k := s.k + 1 }, true)
  else
    let d := s.drain (lim (D.out s.k) s.pend.length)
    ({ d with pend := if D.keep s.k then d.pend else [], k := s.k + 1 }, false)

/-- `fwrite(p, 1, n, f)`: the number of bytes taken. -/
def Stream.fwrite (D : Dev) (s : Stream) (bs : List Byte) : Res (Stream × Nat) :=
  if s.dir = .rd then .error .ub else
    let n := lim (D.take s.k) bs.length
    let b : Stream := { s with at_ := if s.pend = [] then s.pos else s.at_, pend := s.pend ++ bs.take n, pos := s.pos + n, dir := .wr, k := s.k + 1 }
    .ok (b.drain (lim (D.out s.k) b.pend.length), n)

/-- `fread(p, 1, n, f)`: the bytes read. -/
def Stream.fread (D : Dev) (s : Stream) (n : Nat) : Res (Stream × List Byte) :=
  if s.dir = .wr then .error .ub else
    let bs := (s.disk.drop s.pos).take (lim (D.got s.k) n)
    .ok ({ s with pos := s.pos + bs.length, dir := .rd, k := s.k + 1 }, bs)

/-- `fclose(f)`: the bytes of the file, and whether all of the buffer was written. -/
def Stream.close (D : Dev) (s : Stream) : List Byte × Bool :=
  let n := lim (D.out s.k) s.pend.length
  ((s.drain n).disk, decide (n = s.pend.length))

/-! ## The file target -/

/-- targets/file.h:303-304: the stream and `size_`. -/
structure F where
  s : Stream
  size : Nat

/-- targets/file.h:208-212: a file with the bytes `disk` (none, if the mode is `w+`) is opened; `size_` is the size `fstat` tells. -/
def F.opened (disk : List Byte) : F := ⟨⟨disk, 0, [], 0, .none, 0⟩, disk.length⟩

/-- targets/file.h:281-301 `write(ptr, size, alignment)`.  No value: an exception was thrown. -/
def F.write (D : Dev) (f : F) (bs : List Byte) (al : Nat) : Res (F × Option Nat) :=
  let curr := if al > 1 then alignUp f.size al else f.size
  let r := f.s.fseek D (if al > 1 then some curr else none)
  if r.2 = false then .ok (⟨r.1, f.size⟩, none) else do
    let w ← r.1.fwrite D bs
    if w.2 = bs.length then .ok (⟨w.1, curr + bs.length⟩, some curr) else .ok (⟨w.1, f.size⟩, none)

/-- targets/file.h:273-279 `write(pos, val)`. -/
def F.patch (D : Dev) (f : F) (pos : Nat) (bs : List Byte) : Res (F × Option Unit) :=
  let r := f.s.fseek D (some pos)
  if r.2 = false then .ok (⟨r.1, f.size⟩, none) else do
    let w ← r.1.fwrite D bs
    .ok (⟨w.1, f.size⟩, if w.2 = bs.length then some () else none)

/-- targets/file.h:265-269: the blocks of the checksum. -/
def sumLoop (D : Dev) : List (Nat × Nat) → Stream → HashT → Res (Stream × Option HashT)
  | [], s, h => .ok (s, some h)
  | c :: cs, s, h => do
    let r ← s.fread D c.2
    if r.2.length = c.2 then sumLoop D cs r.1 (fnv h r.2) else .ok (r.1, none)

/-- targets/file.h:258-271 `checksum(start)`, `block` bytes at a time. -/
def F.checksum (D : Dev) (block : Nat) (f : F) (start : Nat) : Res (F × Option HashT) :=
  if f.size < start then .ok (f, none) else
    let r := f.s.fseek D (some start)
    if r.2 = false then .ok (⟨r.1, f.size⟩, none) else do
      let cs ← Hash.chunk block (f.size - start)
      let w ← sumLoop D cs r.1 BASE_HASH
      .ok (⟨w.1, f.size⟩, w.2)

/-- targets/file.h:243-250 `size()`: what `fstat` tells about the file. -/
def F.fileSize (f : F) : Nat := f.s.disk.length

/-- targets/file.h:252-256 `content()`. -/
def F.content (D : Dev) (f : F) : Res (F × Option (List Byte)) := do
  let r ← f.s.fread D f.fileSize
  .ok (⟨r.1, f.size⟩, if r.2.length = f.fileSize then some r.2 else none)

/-- targets/file.h:214-219: the result of `fclose` is not looked at; what is left is the file. -/
def F.destroy (D : Dev) (f : F) : List Byte := (f.s.close D).1

/-- One call. -/
inductive Call where
  | block (bs : List Byte) (al : Nat)
  | patch (pos : Nat) (bs : List Byte)
  | sum (start : Nat)

/-- What a call returned. -/
inductive Ans where
  | off (n : Nat)
  | unit
  | hash (h : HashT)
  deriving DecidableEq

def F.call (D : Dev) (block : Nat) (f : F) : Call → Res (F × Option Ans)
  | .block bs al => do
    let r ← f.write D bs al
    .ok (r.1, r.2.map .off)
  | .patch pos bs => do
    let r ← f.patch D pos bs
    .ok (r.1, r.2.map fun _ => .unit)
  | .sum start => do
    let r ← f.checksum D block start
    .ok (r.1, r.2.map .hash)

/-- A history; the caller catches exceptions and goes on. -/
def F.run (D : Dev) (block : Nat) : F → List Call → Res (F × List (Option Ans))
  | f, [] => .ok (f, [])
  | f, c :: cs => do
    let r ← f.call D block c
    let q ← F.run D block r.1 cs
    .ok (q.1, r.2 :: q.2)

/-! ## Specification -/

/-- The bytes a call leaves and its answer; undefined outside of the contents and for empty aligned blocks (C44). -/
def specCall (out : List Byte) : Call → Option (List Byte × Ans)
  | .block bs al => if bs = [] ∧ 1 < al then none else some (specBlock out bs al, .off (specOffset out.length al))
  | .patch pos bs => if pos + bs.length ≤ out.length then some (specPatch out pos bs, .unit) else none
  | .sum start => if start ≤ out.length then some (out, .hash (fnv BASE_HASH (out.drop start))) else none

def specCalls : List Byte → List Call → Option (List Byte × List Ans)
  | out, [] => some (out, [])
  | out, c :: cs => do
    let r ← specCall out c
    let q ← specCalls r.1 cs
    some (q.1, r.2 :: q.2)

/-! ## Lemmas -/

theorem lim_le (o : Option Nat) (n : Nat) : lim o n ≤ n := by
  cases o with
  | none => exact Nat.le_refl _
  | some m => exact Nat.min_le_right _ _

theorem fwriteAt_nil (c : List Byte) (p : Nat) : fwriteAt c p [] = c := by unfold fwriteAt; rw [if_pos rfl]

theorem fwriteAt_append (c : List Byte) (p : Nat) (a b : List Byte) :
    fwriteAt (fwriteAt c p a) (p + a.length) b = fwriteAt c p (a ++ b) := by
  by_cases ha : a = []
  · subst ha
    rw [fwriteAt_nil]
    rfl
  by_cases hb : b = []
  · subst hb
    rw [fwriteAt_nil, List.append_nil]
  unfold fwriteAt
  rw [if_neg ha, if_neg hb, if_neg (by simp [ha])]
  generalize hx : c ++ List.replicate (p - c.length) 0#8 = x
  have hl : p ≤ x.length := by rw [← hx, List.length_append, List.length_replicate]; omega
  have hlen : p + a.length ≤ (overwrite x p a).length := by
    unfold overwrite
    rw [List.length_append, List.length_append, List.length_take]
    omega
  rw [show p + a.length - (overwrite x p a).length = 0 by omega, List.replicate_zero, List.append_nil]
  unfold overwrite
  have h1 : (x.take p ++ a).length = p + a.length := by rw [List.length_append, List.length_take]; omega
  rw [List.take_left' h1, List.drop_append, h1, List.drop_of_length_le (by rw [h1]; omega), List.nil_append, List.drop_drop,
    List.length_append]
  simp only [List.append_assoc]
  congr 4
  omega

/-- The bytes the file has when the buffer is written. -/
def Stream.view (s : Stream) : List Byte := fwriteAt s.disk s.at_ s.pend

/-- The stream is in order: bytes are buffered only after output. -/
structure Stream.Fine (s : Stream) : Prop where
  dir : s.dir ≠ .wr → s.pend = []
  at_ : s.pend ≠ [] → s.at_ + s.pend.length = s.pos

theorem drain_view (s : Stream) (n : Nat) : (s.drain n).view = s.view := by
  unfold Stream.view Stream.drain
  dsimp only
  rw [fwriteAt_append, List.take_append_drop]

theorem drain_fine {s : Stream} (h : s.Fine) (n : Nat) : (s.drain n).Fine := by
  constructor
  · intro hd
    show s.pend.drop n = []
    rw [h.dir hd, List.drop_nil]
  · intro hp
    have hp : s.pend.drop n ≠ [] := hp
    have hne : s.pend ≠ [] := by
      intro e
      rw [e, List.drop_nil] at hp
      exact hp rfl
    have := h.at_ hne
    have hn : n < s.pend.length := by
      rcases Nat.lt_or_ge n s.pend.length with h | h
      · exact h
      · exact absurd (List.drop_of_length_le h) hp
    show s.at_ + (s.pend.take n).length + (s.pend.drop n).length = s.pos
    rw [List.length_take, List.length_drop]
    omega

/-- A seek leaves the stream in order; if it succeeds, the file has all the bytes. -/
theorem fseek_spec (D : Dev) {s : Stream} (h : s.Fine) (dst : Option Nat) :
    (s.fseek D dst).1.Fine ∧ ((s.fseek D dst).2 = D.seek s.k) ∧
    ((s.fseek D dst).2 = true → (s.fseek D dst).1 = ⟨s.view, s.at_ + s.pend.length, [], dst.getD s.view.length, .none, s.k + 1⟩) := by
  unfold Stream.fseek
  cases hk : D.seek s.k with
  | true =>
    rw [if_pos rfl]
    have hd : s.drain s.pend.length = ⟨s.view, s.at_ + s.pend.length, [], s.pos, s.dir, s.k⟩ := by
      unfold Stream.drain Stream.view
      rw [List.take_length, List.drop_length]
    dsimp only
    rw [hd]
    refine ⟨⟨fun _ => rfl, fun hp => absurd rfl hp⟩, rfl, fun _ => rfl⟩
  | false =>
    rw [if_neg (by decide)]
    have hf := drain_fine h (lim (D.out s.k) s.pend.length)
    refine ⟨⟨fun hd => ?_, fun hp => ?_⟩, rfl, nofun⟩
    · show (if D.keep s.k then _ else []) = []
      cases D.keep s.k with
      | true => exact hf.dir hd
      | false => rfl
    · have hp : (if D.keep s.k then (s.drain (lim (D.out s.k) s.pend.length)).pend else []) ≠ [] := hp
      show (s.drain (lim (D.out s.k) s.pend.length)).at_ + List.length (if D.keep s.k then (s.drain (lim (D.out s.k) s.pend.length)).pend else []) =
        (s.drain (lim (D.out s.k) s.pend.length)).pos
      cases hkp : D.keep s.k with
      | true =>
        rw [hkp, if_pos rfl] at hp
        rw [if_pos rfl]
        exact hf.at_ hp
      | false =>
        rw [hkp] at hp
        exact absurd rfl hp

/-- Output on a stream in order. -/
theorem fwrite_spec (D : Dev) {s : Stream} (h : s.Fine) (hd : s.dir ≠ .rd) (bs : List Byte) :
    ∃ s', s.fwrite D bs = .ok (s', lim (D.take s.k) bs.length) ∧ s'.Fine ∧ s'.dir = .wr ∧
      (s.pend = [] → s'.view = fwriteAt s.disk s.pos (bs.take (lim (D.take s.k) bs.length))) := by
  unfold Stream.fwrite
  rw [if_neg hd]
  dsimp only
  refine ⟨_, rfl, drain_fine ⟨fun h => absurd rfl h, fun _ => ?_⟩ _, rfl, fun hp => ?_⟩
  · show (if s.pend = [] then s.pos else s.at_) + (s.pend ++ bs.take (lim (D.take s.k) bs.length)).length = s.pos + lim (D.take s.k) bs.length
    have hl := lim_le (D.take s.k) bs.length
    rw [List.length_append, List.length_take]
    by_cases hp : s.pend = []
    · rw [if_pos hp, hp, List.length_nil]
      omega
    · rw [if_neg hp]
      have := h.at_ hp
      omega
  · rw [drain_view]
    show fwriteAt s.disk (if s.pend = [] then s.pos else s.at_) (s.pend ++ _) = _
    rw [if_pos hp, hp, List.nil_append]

/-- The system does all it is asked for (but keeps bytes in the buffer as it likes). -/
def Dev.Good (D : Dev) : Prop := ∀ k, D.seek k = true ∧ D.take k = none ∧ D.got k = none

/-- The file as `Target.File` sees it. -/
structure F.Is (f : F) (c : List Byte) : Prop where
  fine : f.s.Fine
  view : f.s.view = c
  size : f.size = c.length

theorem opened_is (c : List Byte) : (F.opened c).Is c :=
  ⟨⟨fun _ => rfl, fun h => absurd rfl h⟩, fwriteAt_nil c 0, rfl⟩

/-- A positioned output: `fseek`, `fwrite`. -/
theorem out_spec (D : Dev) {s : Stream} (h : s.Fine) (dst : Option Nat) (bs : List Byte) :
    (s.fseek D dst).1.Fine ∧
    ((s.fseek D dst).2 = false → ¬ D.Good) ∧
    ((s.fseek D dst).2 = true → ∃ s' n, (s.fseek D dst).1.fwrite D bs = .ok (s', n) ∧ s'.Fine ∧ (n ≠ bs.length → ¬ D.Good) ∧
      (n = bs.length → s'.view = fwriteAt s.view (dst.getD s.view.length) bs)) := by
  obtain ⟨h1, h2, h3⟩ := fseek_spec D h dst
  refine ⟨h1, fun h hg => ?_, fun ht => ?_⟩
  · rw [h2, (hg s.k).1] at h
    cases h
  · have h4 := h3 ht
    obtain ⟨s', e, hf, _, hv⟩ := fwrite_spec D h1 (by rw [h4]; nofun) bs
    refine ⟨s', _, e, hf, fun hn hg => ?_, fun hn => ?_⟩
    · rw [(hg _).2.1] at hn
      exact hn rfl
    · rw [hv (by rw [h4]), hn, List.take_length, h4]

/-- A call is over without an exception and did what is specified, or it threw, on a system that is not good. -/
def Did (D : Dev) (f' : F) {α : Type} (r : Option α) (c' : List Byte) (a : α) : Prop := (r = none ∧ ¬ D.Good) ∨ (r = some a ∧ f'.Is c')

theorem fileWrite_spec' (c bs : List Byte) (al : Nat) (h : bs ≠ [] ∨ al ≤ 1) :
    fileWrite ⟨c, c.length⟩ bs al = (⟨specBlock c bs al, (specBlock c bs al).length⟩, specOffset c.length al) := by
  by_cases hb : bs = []
  · subst hb
    have ha : al ≤ 1 := h.resolve_left fun h => h rfl
    unfold fileWrite specBlock specOffset
    simp [show ¬ al > 1 by omega, ha, fwriteAt_nil]
  · exact Target.fileWrite_spec ⟨c, c.length⟩ rfl bs al hb

theorem write_spec (D : Dev) {f : F} (hf : f.s.Fine) (bs : List Byte) (al : Nat) :
    ∃ f' r, f.write D bs al = .ok (f', r) ∧ f'.s.Fine ∧ (r = none → f'.size = f.size) ∧
      ∀ c, f.Is c → bs ≠ [] ∨ al ≤ 1 → Did D f' r (specBlock c bs al) (specOffset c.length al) := by
  unfold F.write
  dsimp only
  obtain ⟨h1, h2, h3⟩ := out_spec D hf (if al > 1 then some (if al > 1 then alignUp f.size al else f.size) else none) bs
  generalize hr : f.s.fseek D (if al > 1 then some (if al > 1 then alignUp f.size al else f.size) else none) = r at h1 h2 h3
  obtain ⟨s1, ok⟩ := r
  cases ok with
  | false => exact ⟨⟨s1, f.size⟩, none, rfl, h1, fun _ => rfl, fun c _ _ => .inl ⟨rfl, h2 rfl⟩⟩
  | true =>
    rw [if_neg nofun]
    obtain ⟨s', n, e, h4, h5, h6⟩ := h3 rfl
    have e : s1.fwrite D bs = .ok (s', n) := e
    rw [e, ok_bind]
    by_cases hn : n = bs.length
    · dsimp only
      rw [if_pos hn]
      refine ⟨_, _, rfl, h4, nofun, fun c hc hb => .inr ?_⟩
      have hw := fileWrite_spec' c bs al hb
      have hcur : (if al > 1 then alignUp f.size al else f.size) = specOffset c.length al := by
        rw [hc.size]
        exact congrArg Prod.snd hw
      have hv := h6 hn
      rw [hc.view] at hv
      have hcont : s'.view = specBlock c bs al := by
        rw [hv]
        have := congrArg (fun p => p.1.content) hw
        dsimp only [Target.fileWrite] at this
        rw [← this, hc.size]
        by_cases ha : al > 1
        · rw [if_pos ha, if_pos ha, if_pos ha, Option.getD_some]
        · rw [if_neg ha, if_neg ha, Option.getD_none]
      refine ⟨by rw [hcur], h4, hcont, ?_⟩
      show (if al > 1 then alignUp f.size al else f.size) + bs.length = _
      rw [hcur, Target.length_specBlock]
    · dsimp only
      rw [if_neg hn]
      exact ⟨_, _, rfl, h4, fun _ => rfl, fun c _ _ => .inl ⟨rfl, h5 hn⟩⟩

theorem patch_spec (D : Dev) {f : F} (hf : f.s.Fine) (pos : Nat) (bs : List Byte) :
    ∃ f' r, f.patch D pos bs = .ok (f', r) ∧ f'.s.Fine ∧ f'.size = f.size ∧
      ∀ c, f.Is c → pos + bs.length ≤ c.length → Did D f' r (specPatch c pos bs) () := by
  unfold F.patch
  dsimp only
  obtain ⟨h1, h2, h3⟩ := out_spec D hf (some pos) bs
  generalize hr : f.s.fseek D (some pos) = r at h1 h2 h3
  obtain ⟨s1, ok⟩ := r
  cases ok with
  | false => exact ⟨⟨s1, f.size⟩, none, rfl, h1, rfl, fun c _ _ => .inl ⟨rfl, h2 rfl⟩⟩
  | true =>
    rw [if_neg nofun]
    obtain ⟨s', n, e, h4, h5, h6⟩ := h3 rfl
    have e : s1.fwrite D bs = .ok (s', n) := e
    rw [e, ok_bind]
    refine ⟨_, _, rfl, h4, rfl, fun c hc hp => ?_⟩
    by_cases hn : n = bs.length
    · dsimp only
      rw [if_pos hn]
      have hv := h6 hn
      rw [hc.view, Option.getD_some] at hv
      have hw := congrArg Target.File.content (Target.filePatch_spec ⟨c, c.length⟩ pos bs hp)
      exact .inr ⟨rfl, h4, hv.trans hw, by rw [hc.size]; simp [specPatch]⟩
    · dsimp only
      rw [if_neg hn]
      exact .inl ⟨rfl, h5 hn⟩

/-- The blocks of the checksum. -/
theorem sumLoop_spec (D : Dev) : ∀ (cs : List (Nat × Nat)) (s : Stream) (h : HashT), s.Fine → s.dir ≠ .wr →
    ∃ s' r, sumLoop D cs s h = .ok (s', r) ∧ s'.Fine ∧ s'.view = s.view ∧
      (s.pos + (cs.map (·.2)).sum ≤ s.disk.length →
        (r = none ∧ ¬ D.Good) ∨ r = some (fnv h ((s.disk.drop s.pos).take (cs.map (·.2)).sum)))
  | [], s, h, hf, hd => ⟨s, _, rfl, hf, rfl, fun _ => .inr (by simp [fnv])⟩
  | c :: cs, s, h, hf, hd => by
    unfold sumLoop Stream.fread
    rw [if_neg hd]
    dsimp only
    rw [ok_bind]
    dsimp only
    have hp := hf.dir hd
    generalize hs1 : (⟨s.disk, s.at_, s.pend, s.pos + ((s.disk.drop s.pos).take (lim (D.got s.k) c.2)).length, .rd, s.k + 1⟩ : Stream) = s1
    have hf1 : s1.Fine := by rw [← hs1]; exact ⟨fun _ => hp, fun h => absurd hp h⟩
    have hv1 : s1.view = s.view := by rw [← hs1]; rfl
    by_cases hl : ((s.disk.drop s.pos).take (lim (D.got s.k) c.2)).length = c.2
    · rw [if_pos hl]
      obtain ⟨s', r, e, g1, g2, g3⟩ := sumLoop_spec D cs s1 (fnv h ((s.disk.drop s.pos).take (lim (D.got s.k) c.2))) hf1
        (by rw [← hs1]; nofun)
      refine ⟨s', r, e, g1, g2.trans hv1, fun hle => ?_⟩
      rw [List.map_cons, List.sum_cons] at hle ⊢
      have hd1 : s1.disk = s.disk := by rw [← hs1]
      have hp1 : s1.pos = s.pos + c.2 := by rw [← hs1]; show s.pos + _ = _; rw [hl]
      rw [hd1, hp1] at g3
      have hle2 := lim_le (D.got s.k) c.2
      have hlim : lim (D.got s.k) c.2 = c.2 := by
        rw [List.length_take] at hl
        omega
      rw [hlim] at g3
      have : fnv (fnv h ((s.disk.drop s.pos).take c.2)) ((s.disk.drop (s.pos + c.2)).take (cs.map (·.2)).sum)
          = fnv h ((s.disk.drop s.pos).take (c.2 + (cs.map (·.2)).sum)) := by
        rw [List.take_add, Hash.fnv_append, List.drop_drop]
      rw [← this]
      exact g3 (by omega)
    · rw [if_neg hl]
      refine ⟨s1, none, rfl, hf1, hv1, fun hle => .inl ⟨rfl, fun hg => ?_⟩⟩
      rw [(hg s.k).2.2] at hl
      rw [List.map_cons, List.sum_cons] at hle
      apply hl
      show ((s.disk.drop s.pos).take c.2).length = c.2
      rw [List.length_take, List.length_drop]
      omega

theorem sum_spec (D : Dev) {block : Nat} (hb : 0 < block) {f : F} (hf : f.s.Fine) (start : Nat) :
    ∃ f' r, f.checksum D block start = .ok (f', r) ∧ f'.s.Fine ∧ f'.size = f.size ∧
      ∀ c, f.Is c → start ≤ c.length → Did D f' r c (fnv BASE_HASH (c.drop start)) := by
  unfold F.checksum
  by_cases hs : f.size < start
  · rw [if_pos hs]
    exact ⟨_, _, rfl, hf, rfl, fun c hc h => absurd hc.size (by omega)⟩
  rw [if_neg hs]
  dsimp only
  obtain ⟨h1, h2, h3⟩ := fseek_spec D hf (some start)
  generalize hr : f.s.fseek D (some start) = r at h1 h2 h3
  obtain ⟨s1, ok⟩ := r
  cases ok with
  | false =>
    refine ⟨⟨s1, f.size⟩, none, rfl, h1, rfl, fun c _ _ => .inl ⟨rfl, fun hg => ?_⟩⟩
    have h2 : false = D.seek f.s.k := h2
    rw [(hg _).1] at h2
    cases h2
  | true =>
    rw [if_neg nofun]
    have h3 : s1 = _ := h3 rfl
    have h1 : s1.Fine := h1
    obtain ⟨l, e1, e2⟩ := Hash.chunkLoop_ok block hb 0 (f.size - start)
    have e1 : Hash.chunk block (f.size - start) = .ok l := e1
    rw [e1, ok_bind]
    obtain ⟨s', r, e3, g1, g2, g3⟩ := sumLoop_spec D l s1 BASE_HASH h1 (by rw [h3]; nofun)
    rw [e3, ok_bind]
    refine ⟨_, _, rfl, g1, rfl, fun c hc hle => ?_⟩
    have hd : s1.disk = c := by rw [h3]; exact hc.view
    have hp : s1.pos = start := by rw [h3]; rfl
    rw [hd, hp, e2, hc.size] at g3
    rcases g3 (by omega) with g | g
    · exact .inl g
    · refine .inr ⟨?_, g1, ?_, hc.size⟩
      · dsimp only
        rw [g, List.take_of_length_le (by rw [List.length_drop]; omega)]
      · show s'.view = c
        rw [g2, h3]
        show fwriteAt f.s.view _ [] = c
        rw [fwriteAt_nil, hc.view]

/-- Any call on a stream in order. -/
theorem call_spec (D : Dev) {block : Nat} (hb : 0 < block) {f : F} (hf : f.s.Fine) (x : Call) :
    ∃ f' r, f.call D block x = .ok (f', r) ∧ f'.s.Fine ∧ (r = none → f'.size = f.size) ∧
      ∀ c, f.Is c → ∀ c' a, specCall c x = some (c', a) → Did D f' r c' a := by
  cases x with
  | block bs al =>
    obtain ⟨f', r, e, h1, h2, h3⟩ := write_spec D hf bs al
    refine ⟨f', r.map .off, by show (do let r ← f.write D bs al; .ok (r.1, r.2.map Ans.off)) = _; rw [e, ok_bind], h1, fun h => h2 (by simpa using h), fun c hc c' a h => ?_⟩
    have h : (if bs = [] ∧ 1 < al then none else some (specBlock c bs al, Ans.off (specOffset c.length al))) = some (c', a) := h
    by_cases hbs : bs = [] ∧ 1 < al
    · rw [if_pos hbs] at h; cases h
    rw [if_neg hbs] at h
    cases h
    have hbs : bs ≠ [] ∨ al ≤ 1 := by
      by_cases hb : bs = []
      · exact .inr (Nat.not_lt.1 fun h => hbs ⟨hb, h⟩)
      · exact .inl hb
    rcases h3 c hc hbs with ⟨h, g⟩ | ⟨h, g⟩
    · exact .inl ⟨by rw [h]; rfl, g⟩
    · exact .inr ⟨by rw [h]; rfl, g⟩
  | patch pos bs =>
    obtain ⟨f', r, e, h1, h2, h3⟩ := patch_spec D hf pos bs
    refine ⟨f', r.map fun _ => .unit, by show (do let r ← f.patch D pos bs; .ok (r.1, r.2.map fun _ => Ans.unit)) = _; rw [e, ok_bind], h1, fun _ => h2, fun c hc c' a h => ?_⟩
    have h : (if pos + bs.length ≤ c.length then some (specPatch c pos bs, Ans.unit) else none) = some (c', a) := h
    by_cases hbs : pos + bs.length ≤ c.length
    · rw [if_pos hbs] at h
      cases h
      rcases h3 c hc hbs with ⟨h, g⟩ | ⟨h, g⟩
      · exact .inl ⟨by rw [h]; rfl, g⟩
      · exact .inr ⟨by rw [h]; rfl, g⟩
    · rw [if_neg hbs] at h; cases h
  | sum start =>
    obtain ⟨f', r, e, h1, h2, h3⟩ := sum_spec D hb hf start
    refine ⟨f', r.map .hash, by show (do let r ← f.checksum D block start; .ok (r.1, r.2.map Ans.hash)) = _; rw [e, ok_bind], h1, fun _ => h2, fun c hc c' a h => ?_⟩
    have h : (if start ≤ c.length then some (c, Ans.hash (fnv BASE_HASH (c.drop start))) else none) = some (c', a) := h
    by_cases hbs : start ≤ c.length
    · rw [if_pos hbs] at h
      cases h
      rcases h3 c hc hbs with ⟨h, g⟩ | ⟨h, g⟩
      · exact .inl ⟨by rw [h]; rfl, g⟩
      · exact .inr ⟨by rw [h]; rfl, g⟩
    · rw [if_neg hbs] at h; cases h

theorem run_ok (D : Dev) {block : Nat} (hb : 0 < block) : ∀ (cs : List Call) {f : F}, f.s.Fine →
    ∃ f' rs, f.run D block cs = .ok (f', rs) ∧ f'.s.Fine ∧ rs.length = cs.length ∧
      ∀ c, f.Is c → ∀ out as, specCalls c cs = some (out, as) →
        (∀ n, (∀ i, i < n → rs[i]? ≠ some none) → rs.take n = (as.take n).map some) ∧ (D.Good → none ∉ rs) ∧ (none ∉ rs → f'.Is out)
  | [], f, hf => ⟨f, [], rfl, hf, rfl, fun c hc out as h => by
      cases h
      exact ⟨fun n _ => by simp, fun _ => List.not_mem_nil, fun _ => hc⟩⟩
  | x :: cs, f, hf => by
    obtain ⟨f1, r, e, h1, _, h3⟩ := call_spec D hb hf x
    obtain ⟨f', rs, e', g1, g2, g3⟩ := run_ok D hb cs h1
    refine ⟨f', r :: rs, by unfold F.run; rw [e, ok_bind, e', ok_bind], g1, by simp [g2], fun c hc out as h => ?_⟩
    unfold specCalls at h
    cases hx : specCall c x with
    | none => rw [hx] at h; cases h
    | some q =>
      obtain ⟨c', a⟩ := q
      rw [hx] at h
      have h : (specCalls c' cs).bind (fun q => some (q.1, a :: q.2)) = some (out, as) := h
      cases hy : specCalls c' cs with
      | none => rw [hy] at h; cases h
      | some q =>
        rw [hy] at h
        cases h
        rcases h3 c hc c' a hx with ⟨hr, hg⟩ | ⟨hr, hi⟩
        · subst hr
          refine ⟨fun n hn => ?_, fun h => absurd h hg, fun h => absurd (List.mem_cons_self ..) h⟩
          cases n with
          | zero => rfl
          | succ n => exact absurd rfl (hn 0 (by omega))
        · subst hr
          obtain ⟨k1, k2, k3⟩ := g3 c' hi q.1 q.2 hy
          refine ⟨fun n hn => ?_, fun hg h => ?_, fun h => k3 fun h' => h (List.mem_cons_of_mem _ h')⟩
          · cases n with
            | zero => rfl
            | succ n =>
              rw [List.take_succ_cons, List.take_succ_cons, List.map_cons, k1 n fun i hi => hn (i + 1) (by omega)]
          · rcases List.mem_cons.1 h with h | h
            · cases h
            · exact k2 hg h

theorem close_spec (D : Dev) (s : Stream) (h : (s.close D).2 = true) : (s.close D).1 = s.view := by
  unfold Stream.close at h ⊢
  dsimp only at h ⊢
  rw [of_decide_eq_true h]
  unfold Stream.drain Stream.view
  rw [List.take_length]

/-! ## C121 -/

/-- **C121** A file target on a system where any seek, read and write may fail or do a part of its work, and where bytes wait in the buffer
of the stream as long as the library likes.  No history of calls has undefined behaviour.  Up to the first exception every call returns what the
specification says; on a system without failures there is none.  If there was no exception and `fclose` reports none of its own, the file has
exactly the specified bytes.  (What happens if `fclose` reports an error, and to calls after an exception: C122.) -/
theorem C121_calls (D : Dev) {block : Nat} (hb : 0 < block) (disk : List Byte) (cs : List Call) :
    ∃ f rs, (F.opened disk).run D block cs = .ok (f, rs) ∧ rs.length = cs.length ∧
      ∀ out as, specCalls disk cs = some (out, as) →
        (∀ n, (∀ i, i < n → rs[i]? ≠ some none) → rs.take n = (as.take n).map some) ∧
        (D.Good → none ∉ rs) ∧
        (none ∉ rs → f.size = out.length ∧ ((f.s.close D).2 = true → f.destroy D = out)) := by
  obtain ⟨f, rs, e, _, hl, h⟩ := run_ok D hb cs (opened_is disk).fine
  refine ⟨f, rs, e, hl, fun out as hs => ?_⟩
  obtain ⟨h1, h2, h3⟩ := h disk (opened_is disk) out as hs
  exact ⟨h1, h2, fun hn => ⟨(h3 hn).size, fun hc => (close_spec D f.s hc).trans (h3 hn).view⟩⟩

/-- **C121** After any history, a call that throws leaves `size_` as it was. -/
theorem C121_throw_size (D : Dev) {block : Nat} (hb : 0 < block) (disk : List Byte) (cs : List Call) {f f' : F} {rs : List (Option Ans)}
    (hr : (F.opened disk).run D block cs = .ok (f, rs)) (x : Call) (h : f.call D block x = .ok (f', none)) : f'.size = f.size := by
  obtain ⟨f0, rs0, e0, hf, _⟩ := run_ok D hb cs (opened_is disk).fine
  rw [e0] at hr
  cases hr
  obtain ⟨f1, r, e, _, h2, _⟩ := call_spec D hb hf x
  rw [e] at h
  cases h
  exact h2 rfl

/-- Everything works, at most two bytes at a time leave the buffer. -/
def calm : Dev := ⟨fun _ => true, fun _ => none, fun _ => some 2, fun _ => true, fun _ => none⟩

/-- Seeks, reads and writes work, nothing ever reaches the file at the end (a full disk that shows when the buffer is written). -/
def full : Dev := ⟨fun _ => true, fun _ => none, fun _ => some 0, fun _ => false, fun _ => none⟩

/-- The second call of the library takes two bytes only (for example the device had no room at that moment), all others work. -/
def hiccup : Dev := ⟨fun _ => true, fun k => if k = 1 then some 2 else none, fun _ => none, fun _ => true, fun _ => none⟩

/-- Three calls on an empty file and their answers. -/
example : ∃ f rs, (F.opened []).run calm 2 [.block [1, 2, 3] 0, .block [4] 4, .patch 1 [9], .sum 0] = .ok (f, rs) ∧
    none ∉ rs ∧ f.size = 5 ∧ (f.s.close calm).2 = true ∧ f.destroy calm = [1, 9, 3, 0, 4] := by
  obtain ⟨f, rs, e, _, h⟩ := C121_calls calm (block := 2) (by decide) [] [.block [1, 2, 3] 0, .block [4] 4, .patch 1 [9], .sum 0]
  obtain ⟨_, h2, h3⟩ := h [1, 9, 3, 0, 4] _ rfl
  have hn := h2 fun _ => ⟨rfl, rfl, rfl⟩
  have hc : (f.s.close calm).2 = true := by
    have : (match (F.opened []).run calm 2 [.block [1, 2, 3] 0, .block [4] 4, .patch 1 [9], .sum 0] with
      | .ok (f, _) => (f.s.close calm).2
      | .error _ => false) = true := by decide +kernel
    rw [e] at this
    exact this
  exact ⟨f, rs, e, hn, (h3 hn).1, hc, (h3 hn).2 hc⟩

/-- A write that takes two bytes of three. -/
example : ∃ f, (F.opened []).call hiccup 512 (.block [1, 2, 3] 0) = .ok (f, none) ∧ f.size = 0 :=
  have h : (F.opened []).call hiccup 512 (.block [1, 2, 3] 0) = .ok (⟨⟨[1, 2], 2, [], 2, .wr, 2⟩, 0⟩, none) := by rfl
  ⟨_, h, C121_throw_size hiccup (by decide) [] [] rfl _ h⟩

/-- Bytes are in the buffer, not in the file, at some time. -/
example : (match (F.opened []).run full 2 [.block [1, 2, 3] 0] with
    | .ok (f, _) => (f.s.disk, f.s.pend, f.s.view)
    | .error _ => ([], [], [])) = ([], [1, 2, 3], [1, 2, 3]) := by decide +kernel

theorem full_write (disk bs : List Byte) :
    (F.opened disk).write full bs 0 = .ok (⟨⟨disk, disk.length, bs, disk.length + bs.length, .wr, 2⟩, disk.length + bs.length⟩, some disk.length) := by
  simp [F.write, F.opened, Stream.fseek, Stream.fwrite, Stream.drain, full, lim, fwriteAt_nil, ok_bind]

/-- **C122 (violated)** `~file` ignores the result of `fclose`: on a full disk every write to every file returns its offset, no call throws, yet the file
stays as it was. -/
theorem C122_close_violated (block : Nat) (disk bs : List Byte) : ∃ f, (F.opened disk).run full block [.block bs 0] = .ok (f, [some (.off disk.length)]) ∧
    specCalls disk [.block bs 0] = some (disk ++ bs, [.off disk.length]) ∧ f.destroy full = disk := by
  refine ⟨⟨⟨disk, disk.length, bs, disk.length + bs.length, .wr, 2⟩, disk.length + bs.length⟩, ?_, ?_, ?_⟩
  · simp [F.run, F.call, full_write, ok_bind]
  · simp [specCalls, specCall, specBlock, specOffset]
  · simp [F.destroy, Stream.close, Stream.drain, full, lim, fwriteAt_nil]

example : ∃ f, (F.opened []).run full 512 [.block [1, 2, 3] 0] = .ok (f, [some (.off 0)]) ∧ f.destroy full = [] :=
  have ⟨f, h1, _, h3⟩ := C122_close_violated 512 [] [1, 2, 3]
  ⟨f, h1, h3⟩

/-- **C122 (violated)** A write throws after `n` of its bytes; the next one returns the offset of the first (`size_` did not change), but its bytes are
`n` later, at the end of the file (`SEEK_END`).  For every file, all bytes, and every system on which everything else works. -/
theorem C122_retry_violated (D : Dev) (block n : Nat) (disk bs bs' : List Byte) (hs : ∀ k, D.seek k = true) (ho : ∀ k, D.out k = none)
    (h1 : D.take 1 = some n) (hn : n < bs.length) (h3 : D.take 3 = none) :
    ∃ f, (F.opened disk).run D block [.block bs 0, .block bs' 0] = .ok (f, [none, some (.off disk.length)]) ∧
      (f.s.close D).2 = true ∧ f.destroy D = disk ++ bs.take n ++ bs' := by
  have hw : ∀ c x : List Byte, fwriteAt c c.length x = c ++ x := by
    intro c x
    unfold fwriteAt overwrite
    by_cases h : x = []
    · rw [if_pos h, h, List.append_nil]
    · rw [if_neg h, Nat.sub_self, List.replicate_zero, List.append_nil, List.take_length, List.drop_of_length_le (by omega), List.append_nil]
  have e1 : (F.opened disk).write D bs 0 = .ok (⟨⟨disk ++ bs.take n, disk.length + n, [], disk.length + n, .wr, 2⟩, disk.length⟩, none) := by
    simp [F.write, F.opened, Stream.fseek, Stream.fwrite, Stream.drain, lim, fwriteAt_nil, ok_bind, hs, ho, h1, hw, Nat.min_eq_left (Nat.le_of_lt hn), Nat.ne_of_lt hn, List.take_take]
  have e2 : (⟨⟨disk ++ bs.take n, disk.length + n, [], disk.length + n, .wr, 2⟩, disk.length⟩ : F).write D bs' 0 =
      .ok (⟨⟨disk ++ bs.take n ++ bs', disk.length + n + bs'.length, [], disk.length + n + bs'.length, .wr, 4⟩, disk.length + bs'.length⟩,
        some disk.length) := by
    have hl : (disk ++ bs.take n).length = disk.length + n := by rw [List.length_append, List.length_take]; omega
    have hw2 := hw (disk ++ bs.take n)
    rw [hl] at hw2
    simp only [F.write, Stream.fseek, Stream.fwrite, Stream.drain, lim, fwriteAt_nil, ok_bind, hs, ho, h3, List.length_nil, List.take_nil,
      List.drop_nil, hl, Option.getD_none, if_true, if_false, Nat.not_lt_zero, gt_iff_lt, reduceCtorEq, List.take_length, List.nil_append, hw2,
      List.drop_length, Nat.reduceAdd, List.append_nil]
  refine ⟨_, by simp only [F.run, F.call, e1, e2, ok_bind, Option.map_none, Option.map_some]; rfl, ?_, ?_⟩ <;>
    simp [F.destroy, Stream.close, Stream.drain, ho, lim, fwriteAt_nil]

example : ∃ f, (F.opened []).run hiccup 512 [.block [1, 2, 3] 0, .block [7] 0] = .ok (f, [none, some (.off 0)]) ∧
    (f.s.close hiccup).2 = true ∧ f.destroy hiccup = [1, 2, 7] :=
  C122_retry_violated hiccup 512 2 [] [1, 2, 3] [7] (fun _ => rfl) (fun _ => rfl) rfl (by decide) rfl

/-! ## C122: reading back -/

/-- **C122 (partial)** `size()` of a file just opened is the number of its bytes, `content()` gives exactly its bytes or throws, and throws only on a system
with failures.  Missing for the full claim: any other moment, where it is false (`C122_twice_violated`, `C122_size_violated`,
`C122_written_violated`, `C122_close_violated`, `C122_retry_violated`). -/
theorem C122_fresh_partial (D : Dev) (disk : List Byte) :
    (F.opened disk).fileSize = disk.length ∧ (F.opened disk).size = disk.length ∧
    ∃ f r, (F.opened disk).content D = .ok (f, r) ∧ f.Is disk ∧ ((r = none ∧ ¬ D.Good) ∨ r = some disk) := by
  refine ⟨rfl, rfl, ?_⟩
  unfold F.content Stream.fread F.fileSize F.opened
  rw [if_neg nofun]
  dsimp only
  rw [ok_bind, List.drop_zero]
  dsimp only
  refine ⟨_, _, rfl, ⟨⟨fun _ => rfl, fun h => absurd rfl h⟩, fwriteAt_nil _ _, rfl⟩, ?_⟩
  by_cases h : (disk.take (lim (D.got 0) disk.length)).length = disk.length
  · rw [if_pos h]
    have := lim_le (D.got 0) disk.length
    rw [List.length_take] at h
    rw [List.take_of_length_le (by omega)]
    exact .inr rfl
  · rw [if_neg h]
    refine .inl ⟨rfl, fun hg => h ?_⟩
    rw [(hg 0).2.2]
    show (disk.take disk.length).length = _
    rw [List.take_length]

example : ∃ f, (F.opened [1, 2, 3]).content calm = .ok (f, some [1, 2, 3]) ∧ f.Is [1, 2, 3] := by
  obtain ⟨_, _, f, r, e, hi, h⟩ := C122_fresh_partial calm [1, 2, 3]
  rcases h with ⟨_, h⟩ | h
  · exact absurd (fun _ => ⟨rfl, rfl, rfl⟩) h
  · exact ⟨f, by rw [e, h], hi⟩

/-- **C122 (violated)** `content()` reads from where the stream is: called a second time, on any file that is not empty and any system without failures,
it throws. -/
theorem C122_twice_violated (D : Dev) (hg : D.Good) (disk : List Byte) (hd : disk ≠ []) :
    ∃ f, (F.opened disk).content D = .ok (f, some disk) ∧ ∃ f', f.content D = .ok (f', none) := by
  have hl := List.length_pos_iff.2 hd
  have h0 : lim (D.got 0) disk.length = disk.length := by rw [(hg 0).2.2]; rfl
  refine ⟨⟨⟨disk, 0, [], disk.length, .rd, 1⟩, disk.length⟩, ?_, ?_⟩
  · unfold F.content Stream.fread F.fileSize F.opened
    rw [if_neg nofun]
    dsimp only
    rw [ok_bind, List.drop_zero, h0]
    dsimp only
    rw [List.take_length, if_pos rfl, Nat.zero_add]
  · unfold F.content Stream.fread F.fileSize
    rw [if_neg nofun]
    dsimp only
    rw [ok_bind, List.drop_length]
    dsimp only
    rw [List.take_nil, if_neg (by rw [List.length_nil]; omega)]
    exact ⟨_, rfl⟩

/-- **C122 (violated)** `size()` asks the system, which does not know of the bytes in the buffer: if they do not leave it, a write does not change it. -/
theorem C122_size_violated (disk bs : List Byte) :
    ∃ f, (F.opened disk).write full bs 0 = .ok (f, some disk.length) ∧ f.size = disk.length + bs.length ∧ f.fileSize = disk.length :=
  ⟨_, full_write disk bs, rfl, rfl⟩

/-- **C122 (violated)** `content()` after any successful write is input directly after output: undefined, on every system. -/
theorem C122_written_violated (D : Dev) (f f' : F) (hf : f.s.Fine) (bs : List Byte) (al o : Nat) (h : f.write D bs al = .ok (f', some o)) :
    f'.content D = .error .ub := by
  have hd : f'.s.dir = .wr := by
    unfold F.write at h
    dsimp only at h
    obtain ⟨h1, _, h3⟩ := fseek_spec D hf (if al > 1 then some (if al > 1 then alignUp f.size al else f.size) else none)
    generalize f.s.fseek D (if al > 1 then some (if al > 1 then alignUp f.size al else f.size) else none) = r at h h1 h3
    obtain ⟨s1, ok⟩ := r
    cases ok with
    | false => rw [if_pos rfl] at h; cases h
    | true =>
      rw [if_neg nofun] at h
      have h3 : s1 = _ := h3 rfl
      obtain ⟨s', e, _, hw, _⟩ := fwrite_spec D (show s1.Fine from h1) (by rw [h3]; nofun) bs
      have e : s1.fwrite D bs = _ := e
      rw [e, ok_bind] at h
      by_cases hn : lim (D.take s1.k) bs.length = bs.length
      · dsimp only at h
        rw [if_pos hn] at h
        cases h
        exact hw
      · dsimp only at h
        rw [if_neg hn] at h
        cases h
  unfold F.content Stream.fread
  rw [if_pos hd]
  rfl

example : ∃ f, (F.opened []).write calm [1, 2, 3] 0 = .ok (f, some 0) ∧ f.content calm = .error .ub := by
  obtain ⟨f, h, _⟩ : ∃ f, (F.opened []).write calm [1, 2, 3] 0 = .ok (f, some 0) ∧ f.size = 3 :=
    ⟨⟨⟨[1, 2], 2, [3], 3, .wr, 2⟩, 3⟩, by rfl, rfl⟩
  exact ⟨f, h, C122_written_violated calm _ f (opened_is []).fine _ _ _ h⟩

end Cista.Stdio

namespace Cista.Ser

open Cista.Arith (Mode)
open Cista.Hash (HashT)

/-- The stdio file as a target of `serialize`; an exception leaves `serialize`. -/
def stdioT (D : Stdio.Dev) (block : Nat) : Tgt Stdio.F where
  put f bs al := do
    let r ← f.write D bs al
    match r.2 with
    | some o => .ok (r.1, o)
    | none => .error .exn
  patch f pos bs := do
    let r ← f.patch D pos bs
    match r.2 with
    | some _ => .ok r.1
    | none => .error .exn
  sum f start := do
    let r ← f.checksum D block start
    match r.2 with
    | some h => .ok (r.1, h)
    | none => .error .exn

theorem stdioT_may (D : Stdio.Dev) {block : Nat} (hb : 0 < block) (M B : Nat) :
    (stdioT D block).May (fun f len buf => f.Is (rd buf 0 len)) (fun z => z = .exn ∧ ¬ D.Good) M B where
  put := by
    intro f len buf bs al r hz _ hne _
    obtain ⟨f', q, e, h1, h2, h3⟩ := Stdio.write_spec D r.fine bs al
    rcases h3 _ r (hne.imp_right And.left) with ⟨h, g⟩ | ⟨h, g⟩
    · exact .inl ⟨.exn, by show (do let r ← f.write D bs al; _) = _; rw [e, ok_bind, h], rfl, g⟩
    · refine .inr ⟨f', ?_, ?_⟩
      · show (do let r ← f.write D bs al; _) = _
        rw [e, ok_bind, h, length_rd, specOffset_eq]
      · rw [← specBlock_eq hz]
        exact g
  patch := by
    intro f len buf pos bs r hz hp
    obtain ⟨f', q, e, h1, h2, h3⟩ := Stdio.patch_spec D r.fine pos bs
    rcases h3 _ r (by rw [length_rd]; exact hp) with ⟨h, g⟩ | ⟨h, g⟩
    · exact .inl ⟨.exn, by show (do let r ← f.patch D pos bs; _) = _; rw [e, ok_bind, h], rfl, g⟩
    · refine .inr ⟨f', by show (do let r ← f.patch D pos bs; _) = _; rw [e, ok_bind, h], ?_⟩
      rw [rd_over hp, Target.overwrite_eq_specPatch _ _ _ (by rw [length_rd]; exact hp)]
      exact g
  sum := by
    intro f len buf start h r hs hh
    obtain ⟨f', q, e, h1, h2, h3⟩ := Stdio.sum_spec D hb r.fine start
    have hh' : h = Hash.fnv Hash.BASE_HASH ((rd buf 0 len).drop start) := by
      unfold Hash.bufChecksum at hh
      rw [decide_eq_true (by rw [length_rd]; exact hs), require_true, ok_bind] at hh
      cases hh
      rfl
    rcases h3 _ r (by rw [length_rd]; omega) with ⟨h, g⟩ | ⟨h, g⟩
    · exact .inl ⟨.exn, by show (do let r ← f.checksum D block start; _) = _; rw [e, ok_bind, h], rfl, g⟩
    · exact .inr ⟨f', by show (do let r ← f.checksum D block start; _) = _; rw [e, ok_bind, h, hh'], g⟩

/-- **C121** `serialize` into a file on a failing system throws, or, if also `fclose` reports no error, the file has exactly the bytes that
`serialize` produces in memory; on a system without failures it does not throw. -/
theorem C121_serialize {host : Endian} {raw : Bool} {m : Mode} {th sh : HashT} {mem : Mem} {t : Ty} {a : Nat}
    (hs : Source host raw m mem t a) :
    ∃ bytes, serialize host raw m th sh mem t a = .ok bytes ∧
      ∀ (D : Stdio.Dev) (block : Nat), 0 < block →
        (serializeT (stdioT D block) host raw m th sh mem t a (.opened []) = .error .exn ∧ ¬ D.Good) ∨
        ∃ f, serializeT (stdioT D block) host raw m th sh mem t a (.opened []) = .ok f ∧ f.size = bytes.length ∧
          ((f.s.close D).2 = true → f.destroy D = bytes) := by
  obtain ⟨bytes, h1, _, _⟩ := C83_targets_agree (th := th) (sh := sh) hs
  refine ⟨bytes, h1, fun D block hb => ?_⟩
  rcases serializeT_may (stdioT_may D hb 0 bytes.length) (s := .opened []) (Stdio.opened_is []) hs.wf t.al_zero h1 (Nat.le_refl _) with
    ⟨z, e, hz, hg⟩ | ⟨f, buf, e, hi, hr, _⟩
  · exact .inl ⟨by rw [e, hz], hg⟩
  · rw [hr] at hi
    exact .inr ⟨f, e, hi.size, fun hc => (Stdio.close_spec D f.s hc).trans hi.view⟩

/-- The demonstration value, on a system that works. -/
example : ∃ bytes f, bytes.length = 84 ∧
    serializeT (stdioT Stdio.calm 16) .little false demoMode 17#64 23#64 demoMem demoRoot 64 (.opened []) = .ok f ∧ f.size = 84 ∧
    ((f.s.close Stdio.calm).2 = true → f.destroy Stdio.calm = bytes) := by
  obtain ⟨bytes, h1, h2⟩ := C121_serialize (th := 17#64) (sh := 23#64) (demo_source demoMode (by decide) (by decide))
  have hl := demo_len
  rw [h1] at hl
  have hl : bytes.length = 84 := hl
  rcases h2 Stdio.calm 16 (by decide) with ⟨_, hg⟩ | ⟨f, e, hz, hc⟩
  · exact absurd (fun _ => ⟨rfl, rfl, rfl⟩) hg
  · exact ⟨bytes, f, hl, e, hz.trans hl, hc⟩

/-- The write of the root object (the sixth call of the library) is cut short. -/
example : serializeT (stdioT ⟨fun _ => true, fun k => if k = 5 then some 7 else none, fun _ => none, fun _ => true, fun _ => none⟩ 16) .little false
    demoMode 17#64 23#64 demoMem demoRoot 64 (.opened []) = .error .exn := by
  have h : (match serializeT (stdioT ⟨fun _ => true, fun k => if k = 5 then some 7 else none, fun _ => none, fun _ => true, fun _ => none⟩ 16) .little
      false demoMode 17#64 23#64 demoMem demoRoot 64 (.opened []) with
    | .error .exn => true
    | _ => false) = true := by decide +kernel
  split at h
  · assumption
  · cases h

end Cista.Ser

import Verif.Target.Model

set_option linter.unusedSimpArgs false

/-!
# C43, C44 — targets and root placement
-/
namespace Cista.Target
open Cista.Arith (Mode)

/-! ## Specification -/

/-- Smallest multiple of `al` that is `≥ n`; `al ≤ 1` means unaligned. -/
def specOffset (n al : Nat) : Nat := if al ≤ 1 then n else n + (al - n % al) % al

/-- Appending a block: zero padding up to the aligned offset, then the block. -/
def specBlock (out bs : List Byte) (al : Nat) : List Byte :=
  out ++ List.replicate (specOffset out.length al - out.length) 0#8 ++ bs

/-- Patching: bytes `pos .. pos+|bs|` replaced, all others unchanged. -/
def specPatch (out : List Byte) (pos : Nat) (bs : List Byte) : List Byte :=
  (List.range out.length).map fun i =>
    if pos ≤ i ∧ i < pos + bs.length then bs.getD (i - pos) 0#8 else out.getD i 0#8

/-- The whole run. `none` if a patch is out of range. -/
def specRun : List Byte → List Op → Option (List Byte × List Nat)
  | out, [] => some (out, [])
  | out, .block bs al :: ops =>
    (specRun (specBlock out bs al) ops).map fun r => (r.1, specOffset out.length al :: r.2)
  | out, .patch pos bs :: ops =>
    if pos + bs.length ≤ out.length then specRun (specPatch out pos bs) ops else none

/-! ## Lemmas -/

theorem alignUp_eq (n al : Nat) (h : 1 < al) : alignUp n al = n + (al - n % al) % al := by
  unfold alignUp
  have hlt : n % al < al := Nat.mod_lt _ (by omega)
  have hdm := Nat.div_add_mod n al
  by_cases h0 : n % al = 0
  · rw [h0]; simp
    have : (n + al - 1) / al = n / al := by
      rw [show n + al - 1 = al * (n / al) + (al - 1) by omega]
      rw [Nat.mul_add_div (by omega), Nat.div_eq_of_lt (a := al - 1) (by omega), Nat.add_zero]
    rw [this, Nat.mul_comm]; omega
  · rw [Nat.mod_eq_of_lt (by omega)]
    have : (n + al - 1) / al = n / al + 1 := by
      rw [show n + al - 1 = al * (n / al + 1) + (n % al - 1) by
        rw [Nat.mul_add]; omega]
      rw [Nat.mul_add_div (by omega), Nat.div_eq_of_lt (a := n % al - 1) (by omega), Nat.add_zero]
    rw [this, Nat.add_mul, Nat.mul_comm]; omega

theorem specOffset_ge (n al : Nat) : n ≤ specOffset n al := by
  unfold specOffset; split <;> omega

theorem specOffset_mod (n al : Nat) (h : 1 < al) : specOffset n al % al = 0 := by
  unfold specOffset
  rw [if_neg (by omega), ← alignUp_eq n al h]
  unfold alignUp
  simp

theorem length_specBlock (out bs : List Byte) (al : Nat) :
    (specBlock out bs al).length = specOffset out.length al + bs.length := by
  have := specOffset_ge out.length al
  simp [specBlock]; omega

theorem length_overwrite (l : List Byte) (pos : Nat) (bs : List Byte) (h : pos + bs.length ≤ l.length) :
    (overwrite l pos bs).length = l.length := by
  simp [overwrite]; omega

theorem overwrite_eq_specPatch (l : List Byte) (pos : Nat) (bs : List Byte)
    (h : pos + bs.length ≤ l.length) : overwrite l pos bs = specPatch l pos bs := by
  apply List.ext_getElem?
  intro i
  unfold specPatch overwrite
  by_cases hi : i < l.length
  · simp only [List.getElem?_map, List.getElem?_range hi, Option.map_some]
    by_cases h1 : i < pos
    · rw [if_neg (by omega), List.append_assoc, List.getElem?_append_left (by simp; omega)]
      simp [List.getElem?_take, h1, List.getD_eq_getElem?_getD, hi]
    · by_cases h2 : i < pos + bs.length
      · rw [if_pos (by omega), List.append_assoc, List.getElem?_append_right (by simp; omega),
          List.getElem?_append_left (by simp; omega)]
        have e : i - (List.take pos l).length = i - pos := by simp; omega
        rw [e]
        have : i - pos < bs.length := by omega
        simp [List.getD_eq_getElem?_getD, this]
      · rw [if_neg (by omega), List.getElem?_append_right (by simp; omega)]
        rw [List.getElem?_drop]
        have e : pos + bs.length + (i - (List.take pos l ++ bs).length) = i := by simp; omega
        rw [e]
        simp [List.getD_eq_getElem?_getD, hi]
  · rw [List.getElem?_eq_none (by simp; omega), List.getElem?_eq_none (by simp; omega)]

theorem overwrite_append_zeros (out bs : List Byte) (k : Nat) :
    overwrite (out ++ List.replicate (k + bs.length) 0#8) (out.length + k) bs =
      out ++ List.replicate k 0#8 ++ bs := by
  unfold overwrite
  rw [List.drop_of_length_le (by simp; omega), List.append_nil]
  congr 1
  rw [List.take_length_add_append, List.take_replicate]
  congr 2; omega

theorem bufWrite_spec (base : Nat) (buf bs : List Byte) (al : Nat) (hbs : bs ≠ [])
    (hbase : al ≤ 1 ∨ buf = [] ∨ base % al = 0) :
    bufWrite base buf bs al = .ok (specBlock buf bs al, specOffset buf.length al) := by
  have hlen : 0 < bs.length := List.length_pos_iff.2 hbs
  have hstart : (if al > 1 ∧ buf.length ≠ 0
      then alignUp (base + buf.length) al - base else buf.length) = specOffset buf.length al := by
    by_cases h1 : al > 1
    · by_cases h2 : buf.length = 0
      · rw [if_neg (by omega), h2]; unfold specOffset
        rw [if_neg (by omega)]; simp
      · rw [if_pos ⟨h1, h2⟩, alignUp_eq _ _ h1]
        have hb : base % al = 0 := by
          rcases hbase with h | h | h
          · omega
          · subst h; simp at h2
          · exact h
        unfold specOffset
        rw [if_neg (by omega)]
        have : (base + buf.length) % al = buf.length % al := by
          rw [Nat.add_mod, hb]; simp
        rw [this]; omega
    · rw [if_neg (by omega)]; unfold specOffset; rw [if_pos (by omega)]
  unfold bufWrite
  simp only [hstart]
  have hge := specOffset_ge buf.length al
  have hsp : ((buf.length : Int) - (specOffset buf.length al : Int)) < (bs.length : Int) := by omega
  simp only [hsp, if_true]
  have hn : ((bs.length : Int) - ((buf.length : Int) - (specOffset buf.length al : Int))).toNat =
      (specOffset buf.length al - buf.length) + bs.length := by omega
  simp only [hn]
  rw [if_neg (by simp only [List.length_append, List.length_replicate]; omega),
    if_pos (by simp only [List.length_append, List.length_replicate]; omega)]
  have := overwrite_append_zeros buf bs (specOffset buf.length al - buf.length)
  rw [show buf.length + (specOffset buf.length al - buf.length) = specOffset buf.length al by omega] at this
  rw [this]
  rfl

theorem fileWrite_spec (f : File) (hf : f.size = f.content.length) (bs : List Byte) (al : Nat)
    (hbs : bs ≠ []) :
    fileWrite f bs al =
      ({ content := specBlock f.content bs al, size := (specBlock f.content bs al).length },
       specOffset f.content.length al) := by
  have hcurr : (if al > 1 then alignUp f.size al else f.size) = specOffset f.content.length al := by
    unfold specOffset
    by_cases h : al > 1
    · rw [if_pos h, if_neg (by omega), hf, alignUp_eq _ _ h]
    · rw [if_neg h, if_pos (by omega), hf]
  have hseek : (if al > 1 then (if al > 1 then alignUp f.size al else f.size) else f.content.length)
      = specOffset f.content.length al := by
    rw [hcurr]
    by_cases h : al > 1
    · rw [if_pos h]
    · rw [if_neg h]; unfold specOffset; rw [if_pos (by omega)]
  unfold fileWrite
  simp only [hseek]
  simp only [hcurr]
  have hge := specOffset_ge f.content.length al
  have hc : fwriteAt f.content (specOffset f.content.length al) bs = specBlock f.content bs al := by
    unfold fwriteAt
    rw [if_neg hbs]
    unfold specBlock overwrite
    rw [List.drop_of_length_le (by simp; omega), List.append_nil]
    rw [List.take_of_length_le (by simp; omega)]
  rw [hc, length_specBlock]

theorem filePatch_spec (f : File) (pos : Nat) (bs : List Byte)
    (h : pos + bs.length ≤ f.content.length) :
    filePatch f pos bs = { f with content := specPatch f.content pos bs } := by
  unfold filePatch fwriteAt
  congr 1
  split
  · next hb =>
    subst hb
    rw [← overwrite_eq_specPatch _ _ _ h]; simp [overwrite]
  · rw [show pos - f.content.length = 0 by omega]
    simp only [List.replicate_zero, List.append_nil]
    exact overwrite_eq_specPatch _ _ _ h

/-! ## C44 -/

/-- Every appended block is non-empty (all block writes of the serializer are). -/
def NonEmptyBlocks (ops : List Op) : Prop := ∀ bs al, Op.block bs al ∈ ops → bs ≠ []

/-- Every alignment used divides the buffer's base address during the whole run. -/
def BasesAligned (bases : Nat → Nat) (ops : List Op) : Prop :=
  ∀ bs al, Op.block bs al ∈ ops → ∀ k, 1 < al → bases k % al = 0

/-- **C44** The file target writes exactly the specified bytes and returns the specified offsets,
for every sequence of block writes and in-range patches. -/
theorem C44_file_target (ops : List Op) (hne : NonEmptyBlocks ops) (f : File)
    (hf : f.size = f.content.length) (out : List Byte) (offs : List Nat)
    (hs : specRun f.content ops = some (out, offs)) :
    runFile f ops = ({ content := out, size := out.length }, offs) := by
  induction ops generalizing f out offs with
  | nil =>
    simp [specRun] at hs
    obtain ⟨rfl, rfl⟩ := hs
    obtain ⟨c, s⟩ := f
    simp at hf; subst hf
    rfl
  | cons op ops ih =>
    have hne' : NonEmptyBlocks ops := fun bs al h => hne bs al (by simp [h])
    cases op with
    | block bs al =>
      have hbs := hne bs al (by simp)
      simp only [specRun] at hs
      cases hr : specRun (specBlock f.content bs al) ops with
      | none => rw [hr] at hs; simp at hs
      | some r =>
        rw [hr] at hs
        simp at hs
        obtain ⟨rfl, rfl⟩ := hs
        simp only [runFile, fileWrite_spec f hf bs al hbs]
        rw [ih hne' ⟨specBlock f.content bs al, _⟩ rfl r.1 r.2 hr]
    | patch pos bs =>
      simp only [specRun] at hs
      split at hs
      · next h =>
        simp only [runFile, filePatch_spec f pos bs h]
        exact ih hne' ⟨specPatch f.content pos bs, f.size⟩ (by simp [specPatch, hf]) out offs hs
      · cases hs

/-- **C44 (partial)** The memory target writes the same bytes and offsets as the file target, for
every sequence of block writes and patches, provided the buffer's address is a multiple of the
requested alignments; an out-of-range patch throws.  Missing for the full claim: alignments larger
than what the allocator guarantees, where it is false (`C44_buf_overaligned_violated`). -/
theorem C44_buf_target_partial (bases : Nat → Nat) (ops : List Op) (hne : NonEmptyBlocks ops)
    (hb : BasesAligned bases ops) (k : Nat) (b : List Byte) :
    runBuf bases k b ops =
      match specRun b ops with
      | some r => .ok r
      | none => .error .exn := by
  induction ops generalizing k b with
  | nil => simp [specRun, runBuf]
  | cons op ops ih =>
    have hne' : NonEmptyBlocks ops := fun bs al h => hne bs al (by simp [h])
    have hb' : BasesAligned bases ops := fun bs al h => hb bs al (by simp [h])
    cases op with
    | block bs al =>
      have hbs := hne bs al (by simp)
      have hw := bufWrite_spec (bases k) b bs al hbs (by
        by_cases h : al ≤ 1
        · exact Or.inl h
        · exact Or.inr (Or.inr (hb bs al (by simp) k (by omega))))
      simp only [runBuf, hw, specRun, bind, Except.bind]
      rw [ih hne' hb' (k + 1)]
      cases specRun (specBlock b bs al) ops <;> simp [pure, Except.pure]
    | patch pos bs =>
      simp only [runBuf, specRun, bufPatch]
      by_cases h : pos + bs.length ≤ b.length
      · have : decide (b.length ≥ pos + bs.length) = true := by simpa using h
        rw [this, if_pos h]
        simp only [verify_true, bind, Except.bind, pure, Except.pure]
        rw [overwrite_eq_specPatch b pos bs h]
        exact ih hne' hb' (k + 1) _
      · have : decide (b.length ≥ pos + bs.length) = false := by simpa using h
        rw [this, if_neg h]
        rfl

/-- **C44** What the specification guarantees about each block: it starts at a multiple of its
alignment, at the returned offset, everything before is kept and the padding is zero. -/
theorem C44_block_placement (out bs : List Byte) (al : Nat) :
    let off := specOffset out.length al
    (1 < al → off % al = 0) ∧ out.length ≤ off ∧
    (specBlock out bs al).take out.length = out ∧
    ((specBlock out bs al).drop off).take bs.length = bs ∧
    (∀ i, out.length ≤ i → i < off → (specBlock out bs al)[i]? = some 0#8) := by
  intro off
  have hge := specOffset_ge out.length al
  refine ⟨specOffset_mod _ _, hge, by simp [specBlock, List.append_assoc], ?_, ?_⟩
  · have hl : (out ++ List.replicate (specOffset out.length al - out.length) 0#8).length = off := by
      simp only [List.length_append, List.length_replicate]; omega
    unfold specBlock
    rw [← hl]
    simp
  · intro i h1 h2
    unfold specBlock
    rw [List.append_assoc, List.getElem?_append_right h1,
      List.getElem?_append_left (by simp; omega), List.getElem?_replicate]
    rw [if_pos (by omega)]

/-- **C44** A patch changes only the patched bytes. -/
theorem C44_patch_frame (out : List Byte) (pos : Nat) (bs : List Byte) (i : Nat)
    (h : i < pos ∨ pos + bs.length ≤ i) : (specPatch out pos bs)[i]? = out[i]? := by
  unfold specPatch
  by_cases hi : i < out.length
  · simp only [List.getElem?_map, List.getElem?_range hi, Option.map_some]
    rw [if_neg (by omega)]
    simp [List.getD_eq_getElem?_getD, hi]
  · rw [List.getElem?_eq_none (by simp; omega), List.getElem?_eq_none (by omega)]

/-- **C44 violated** The memory target aligns the *address* instead of the offset: whenever the buffer
is not empty and does not itself lie on a multiple of the alignment, the block is put at an offset that
is no multiple of the alignment, so it differs from the offset that the file target uses. -/
theorem C44_buf_overaligned_violated (base : Nat) (out bs : List Byte) (al : Nat) (h1 : 1 < al)
    (hne : out ≠ []) (hb : base % al ≠ 0) (f : File) :
    ∃ out' off, bufWrite base out bs al = .ok (out', off) ∧ off % al ≠ 0 ∧
      (fileWrite f bs al).2 % al = 0 := by
  have hl : out.length ≠ 0 := fun h => hne (List.length_eq_zero_iff.1 h)
  have hmul : ∀ x, alignUp x al % al = 0 := fun x => Nat.mul_mod_left _ _
  have hge : base + out.length ≤ alignUp (base + out.length) al := by rw [alignUp_eq _ _ h1]; omega
  have hm := hmul (base + out.length)
  unfold bufWrite
  simp only [h1, hl, ne_eq, not_false_eq_true, and_self, if_true]
  generalize alignUp (base + out.length) al = st at hge hm
  have hlen : (if (out.length : Int) - ((st - base : Nat) : Int) < (bs.length : Int) then
      out ++ List.replicate ((bs.length : Int) - ((out.length : Int) - ((st - base : Nat) : Int))).toNat 0#8
      else out).length = max out.length (st - base + bs.length) := by
    split
    · rw [List.length_append, List.length_replicate]; omega
    · omega
  rw [if_neg (by rw [hlen]; omega), if_pos (by rw [hlen]; omega)]
  refine ⟨_, _, rfl, ?_, ?_⟩
  · intro h
    apply hb
    have e : st = base + (st - base) := by omega
    rw [e, Nat.add_mod, h, Nat.add_zero, Nat.mod_mod] at hm
    exact hm
  · unfold fileWrite
    simp only [h1, gt_iff_lt, if_true, hmul]

example : (∃ out, bufWrite 16 [1#8] [2#8] 32 = .ok (out, 16)) ∧
    (fileWrite { content := [1#8], size := 1 } [2#8] 32).2 = 32 := ⟨⟨_, rfl⟩, rfl⟩

/-- **C44 violated** A zero-sized aligned block written to a file breaks the size bookkeeping: whenever
the file does not end on the alignment, the next unaligned block is stored at the end of the file while
a larger offset is returned. -/
theorem C44_file_empty_block_violated (content bs : List Byte) (al : Nat) (h1 : 1 < al)
    (hu : content.length % al ≠ 0) :
    ∃ off, runFile { content := content, size := content.length } [.block [] al, .block bs 0] =
        ({ content := content ++ bs, size := off + bs.length }, [off, off]) ∧ content.length < off := by
  have hlt : content.length % al < al := Nat.mod_lt _ (by omega)
  have hgt : content.length < alignUp content.length al := by
    rw [alignUp_eq _ _ h1, Nat.mod_eq_of_lt (show al - content.length % al < al by omega)]; omega
  refine ⟨alignUp content.length al, ?_, hgt⟩
  simp [runFile, fileWrite, h1, fwriteAt]
  split
  · simp_all
  · simp [overwrite]

example : let r := runFile { content := [], size := 0 } [.block [1#8] 0, .block [] 8, .block [2#8] 0]
    r.2 = [0, 8, 8] ∧ r.1.content = [1#8, 2#8] := by decide

example : specRun [] [.block [1#8] 0, .block [2#8, 3#8] 4, .patch 5 [9#8]] =
    some ([1#8, 0#8, 0#8, 0#8, 2#8, 9#8], [0, 4]) := by decide
example : NonEmptyBlocks [.block [1#8] 0, .block [2#8, 3#8] 4, .patch 5 [9#8]] := by
  intro bs al h; simp at h; rcases h with ⟨rfl, _⟩ | ⟨rfl, _⟩ <;> simp
example : BasesAligned (fun k => 16 * k) [.block [1#8] 0, .block [2#8, 3#8] 4] := by
  intro bs al h k h1
  simp at h
  rcases h with ⟨rfl, rfl⟩ | ⟨rfl, rfl⟩ <;> simp only [] <;> omega

/-! ## C43 -/

/-- **C43 (partial)** Without `SKIP_*` flags, the root object is written exactly where
`deserialize` looks for it, provided the header length is a multiple of the root's alignment (true
for every alignment up to 8, and up to 16 when both or no header fields are present).  Missing: roots
with a larger alignment (`C43_overaligned_root_violated`). -/
theorem C43_root_position_partial (host : Endian) (m : Mode) (th sh : Hash.HashT) (root : List Byte)
    (al : Nat) (hsv : Mode.isEnabled m Mode.SKIP_VERSION = false)
    (hsi : Mode.isEnabled m Mode.SKIP_INTEGRITY = false)
    (hal : Hash.dataStart m % al = 0) :
    rootOffsetFile host m th sh root al = Hash.dataStart m := by
  have hoff : ∀ (f : File), f.size = Hash.dataStart m → (fileWrite f root al).2 = Hash.dataStart m := by
    intro f hf
    unfold fileWrite
    simp only [hf]
    split
    · next h =>
      rw [alignUp_eq _ _ h, hal]; simp
    · rfl
  unfold rootOffsetFile
  apply hoff
  unfold Hash.dataStart Hash.integrityStart Hash.versionBytes
  have hne : ∀ v, hostBytes host 8 v ≠ [] := by
    intro v h; have := congrArg List.length h; simp at this
  cases hv : Mode.isEnabled m Mode.WITH_VERSION <;>
  cases hs : Mode.isEnabled m Mode.WITH_STATIC_VERSION <;>
  cases hi : Mode.isEnabled m Mode.WITH_INTEGRITY <;>
  simp [hsv, hsi, fileWrite, hne]

/-- **C43 violated** For every root type whose alignment does not divide the header length, the root
object is not where `deserialize` looks for it. -/
theorem C43_overaligned_root_violated (host : Endian) (m : Mode) (th sh : Hash.HashT) (root : List Byte)
    (al : Nat) (hsv : Mode.isEnabled m Mode.SKIP_VERSION = false)
    (hsi : Mode.isEnabled m Mode.SKIP_INTEGRITY = false) (h1 : 1 < al)
    (hal : Hash.dataStart m % al ≠ 0) :
    Hash.dataStart m < rootOffsetFile host m th sh root al := by
  have hoff : ∀ (f : File), f.size = Hash.dataStart m → Hash.dataStart m < (fileWrite f root al).2 := by
    intro f hf
    have hlt : Hash.dataStart m % al < al := Nat.mod_lt _ (by omega)
    unfold fileWrite
    simp only [hf, gt_iff_lt, h1, if_true]
    rw [alignUp_eq _ _ h1, Nat.mod_eq_of_lt (show al - Hash.dataStart m % al < al by omega)]; omega
  unfold rootOffsetFile
  apply hoff
  unfold Hash.dataStart Hash.integrityStart Hash.versionBytes
  have hne : ∀ v, hostBytes host 8 v ≠ [] := by
    intro v h; have := congrArg List.length h; simp at this
  cases hv : Mode.isEnabled m Mode.WITH_VERSION <;>
  cases hs : Mode.isEnabled m Mode.WITH_STATIC_VERSION <;>
  cases hi : Mode.isEnabled m Mode.WITH_INTEGRITY <;>
  simp [hsv, hsi, fileWrite, hne]

example : rootOffsetFile .little Mode.WITH_VERSION 0 0 [1#8] 16 = 16 ∧
    Hash.dataStart Mode.WITH_VERSION = 8 := by decide

example : Mode.isEnabled (Mode.orAll [Mode.WITH_VERSION, Mode.WITH_INTEGRITY]) Mode.SKIP_VERSION = false ∧
    Hash.dataStart (Mode.orAll [Mode.WITH_VERSION, Mode.WITH_INTEGRITY]) % 16 = 0 := by decide

end Cista.Target

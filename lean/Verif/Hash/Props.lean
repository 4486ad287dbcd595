import Verif.Hash.Lemmas

set_option linter.unusedSimpArgs false

/-!
# C03, C04, C05, C06, C34 — checksums, chunking, byte order, hashing
-/
namespace Cista.Hash
open Cista.Arith (Mode)

/-! ## C05 -/

/-- Specification of a chunking of `[start, start+total)`: consecutive non-empty pieces of size at
most `cs` that start at `start` and end at `start+total`. -/
inductive IsChunking (cs : Nat) : Nat → Nat → List (Nat × Nat) → Prop
  | done (off) : IsChunking cs off 0 []
  | step (off len rest total) : 0 < len → len ≤ cs → IsChunking cs (off + len) total rest →
      IsChunking cs off (len + total) ((off, len) :: rest)

theorem chunkLoop_isChunking (cs : Nat) (hc : 0 < cs) (off rem : Nat) :
    ∃ l, chunkLoop cs off rem = .ok l ∧ IsChunking cs off rem l := by
  induction rem using Nat.strongRecOn generalizing off with
  | ind rem ih =>
    unfold chunkLoop
    by_cases hr : rem = 0
    · subst hr; exact ⟨[], by simp, .done off⟩
    · obtain ⟨l, h1, h2⟩ := ih (rem - min rem cs) (by omega) (off + min rem cs)
      refine ⟨(off, min rem cs) :: l, ?_, ?_⟩
      · simp [hr, show cs ≠ 0 by omega, h1, bind, Except.bind, pure, Except.pure]
      · have := IsChunking.step (cs := cs) off (min rem cs) l (rem - min rem cs) (by omega)
          (by omega) h2
        rwa [show min rem cs + (rem - min rem cs) = rem by omega] at this

/-- **C05** For every positive chunk size, `chunk` terminates and its calls partition `[0,total)`
into consecutive non-empty pieces of at most `chunk_size`. -/
theorem C05_chunk_partition (cs total : Nat) (hc : 0 < cs) :
    ∃ l, chunk cs total = .ok l ∧ IsChunking cs 0 total l :=
  chunkLoop_isChunking cs hc 0 total

/-- Every index of a chunked range lies in exactly one piece (consequence of `IsChunking`). -/
theorem C05_each_index_once (cs off total : Nat) (l : List (Nat × Nat)) (h : IsChunking cs off total l)
    (i : Nat) :
    l.countP (fun c => decide (c.1 ≤ i ∧ i < c.1 + c.2)) =
      if off ≤ i ∧ i < off + total then 1 else 0 := by
  induction h with
  | done off => simp
  | step off len rest total hl hle hrest ih =>
    simp only [List.countP_cons, ih]
    by_cases h1 : off ≤ i ∧ i < off + len
    · have : ¬ (off + len ≤ i ∧ i < off + len + total) := by omega
      have h3 : off ≤ i ∧ i < off + (len + total) := by omega
      rw [if_neg this, if_pos h3, if_pos (by simpa using h1)]
    · by_cases h2 : off + len ≤ i ∧ i < off + len + total
      · have h3 : off ≤ i ∧ i < off + (len + total) := by omega
        simp only [h1, if_pos h2, if_pos h3, decide_false]; simp
      · have h3 : ¬ (off ≤ i ∧ i < off + (len + total)) := by omega
        simp only [h1, if_neg h2, if_neg h3, decide_false]; simp

/-- The precondition `chunk_size > 0` is needed: with chunk size 0 the loop never ends. -/
theorem C05_zero_chunk_size_diverges (total : Nat) (h : total ≠ 0) :
    chunk 0 total = .error .diverge := by
  unfold chunk chunkLoop; simp [h]

example : ∃ l, chunk 4 10 = .ok l ∧ l = [(0, 4), (4, 4), (8, 2)] := by
  refine ⟨_, ?_, rfl⟩
  simp [chunk, chunkLoop, bind, Except.bind, pure, Except.pure]

/-! ## C03 -/

/-- C03: the hash of a string is the 64-bit FNV-1a hash as published, computed with natural numbers: from the offset basis
0xcbf29ce484222325, xor with each byte and multiply by 2^40 + 2^8 + 0xb3 modulo 2^64. -/
theorem C03_fnv1a (s : List Byte) :
    (fnv BASE_HASH s).toNat = s.foldl (fun h b => (h ^^^ b.toNat) * (2 ^ 40 + 2 ^ 8 + 0xb3) % 2 ^ 64) 0xcbf29ce484222325 := by
  have key : ∀ (s : List Byte) (h : HashT) (n : Nat), h.toNat = n →
      (fnv h s).toNat = s.foldl (fun h b => (h ^^^ b.toNat) * (2 ^ 40 + 2 ^ 8 + 0xb3) % 2 ^ 64) n := by
    intro s
    induction s with
    | nil => exact fun h n hn => hn
    | cons b s ih =>
      intro h n hn
      unfold fnv
      rw [List.foldl_cons, List.foldl_cons]
      refine ih _ _ ?_
      have hb : b.toNat < 2 ^ 64 := Nat.lt_of_lt_of_le b.isLt (by decide)
      unfold hashCombine fnvPrime
      rw [BitVec.toNat_mul, BitVec.toNat_xor, BitVec.toNat_setWidth, Nat.mod_eq_of_lt hb, hn]
      rfl
  exact key s BASE_HASH _ rfl

/-- Published test vectors: the empty string, "a" and "foobar". -/
example : fnv BASE_HASH [] = 0xcbf29ce484222325#64 ∧ fnv BASE_HASH [0x61#8] = 0xaf63dc4c8601ec8c#64 ∧
    fnv BASE_HASH [0x66#8, 0x6f#8, 0x6f#8, 0x62#8, 0x61#8, 0x72#8] = 0x85944171f73967e8#64 := by decide

/-- **C03** Hashing a byte string in any sequence of consecutive blocks gives the hash of the
whole string. -/
theorem C03_hash_of_blocks (h : HashT) (blocks : List (List Byte)) :
    blocks.foldl fnv h = fnv h blocks.flatten := by
  induction blocks generalizing h with
  | nil => rfl
  | cons b bs ih => simp [ih, fnv_append]

/-- **C03** The block-wise checksum of the file target equals the whole-buffer checksum of the
memory target, for every content, every start offset and every positive block size. -/
theorem C03_file_checksum_eq_buf (bs : Nat) (hb : 0 < bs) (content : List Byte) (start : Nat)
    (hs : start < content.length) :
    fileChecksum bs content content.length start = bufChecksum content start ∧
    fileChecksum bs content content.length start = .ok (fnv BASE_HASH (content.drop start)) := by
  obtain ⟨l, h1, h2⟩ := chunkLoop_ok bs hb 0 (content.length - start)
  have hf := fold_checksumBlock content l start BASE_HASH (by rw [h2]; omega)
  have hfile : fileChecksum bs content content.length start =
      .ok (fnv BASE_HASH (content.drop start)) := by
    unfold fileChecksum chunk
    have : decide (start ≤ content.length) = true := by simp; omega
    simp only [this, verify_true, h1, bind, Except.bind, hf, pure, Except.pure, h2]
    rw [List.take_of_length_le (by simp)]
  refine ⟨?_, hfile⟩
  rw [hfile]
  simp [bufChecksum, hs, bind, Except.bind, pure, Except.pure]

example : fileChecksum 2 [1#8, 2#8, 3#8, 4#8, 5#8] 5 1 = bufChecksum [1#8, 2#8, 3#8, 4#8, 5#8] 1 :=
  (C03_file_checksum_eq_buf 2 (by decide) _ 1 (by decide)).1

/-! ## C04 -/

/-- **C04** The hash changes whenever exactly one byte changes. -/
theorem C04_single_byte_changes_hash (pre post : List Byte) (x y : Byte) (hxy : x ≠ y) :
    fnv BASE_HASH (pre ++ x :: post) ≠ fnv BASE_HASH (pre ++ y :: post) :=
  fnv_ne_of_one_diff BASE_HASH pre post x y hxy

theorem checkVersion_eq (host : Endian) (m : Mode) (th sh : HashT) (b : List Byte)
    (hlen : dataStart m < b.length) :
    checkVersion host m th sh b =
      if (Mode.isEnabled m Mode.WITH_VERSION = true →
            convertEndian host m 8 (ofHost host (b.take 8)) = th.toNat) ∧
         (Mode.isEnabled m Mode.WITH_VERSION = false →
            Mode.isEnabled m Mode.WITH_STATIC_VERSION = true →
            convertEndian host m 8 (ofHost host (b.take 8)) = sh.toNat)
      then .ok () else .error .exn := by
  have hver : (Mode.isEnabled m Mode.WITH_VERSION = true ∨
      Mode.isEnabled m Mode.WITH_STATIC_VERSION = true) → 8 ≤ b.length := by
    intro h
    have : integrityStart m = 8 := by
      rcases h with h | h <;> simp [integrityStart, h]
    simp [dataStart, this] at hlen; omega
  unfold checkVersion
  cases hv : Mode.isEnabled m Mode.WITH_VERSION
  · cases hs : Mode.isEnabled m Mode.WITH_STATIC_VERSION
    · simp
    · have h8 := hver (Or.inr hs)
      simp [readU64, h8, bind, Except.bind, pure, Except.pure, verify]
  · have h8 := hver (Or.inl hv)
    simp [readU64, h8, bind, Except.bind, pure, Except.pure, verify]

theorem checkIntegrity_eq (host : Endian) (m : Mode) (b : List Byte)
    (hlen : dataStart m < b.length) :
    checkIntegrity host m b =
      if (Mode.isEnabled m Mode.WITH_INTEGRITY = true →
        convertEndian host m 8 (ofHost host ((b.drop (integrityStart m)).take 8)) =
          (fnv BASE_HASH (b.drop (dataStart m))).toNat)
      then .ok () else .error .exn := by
  unfold checkIntegrity
  cases hi : Mode.isEnabled m Mode.WITH_INTEGRITY
  · simp
  · have h8 : integrityStart m + 8 ≤ b.length := by simp [dataStart, hi] at hlen; omega
    simp [readU64, h8, bind, Except.bind, pure, Except.pure, verify]

theorem check_eq (host : Endian) (m : Mode) (th sh : HashT) (b : List Byte) :
    check host m th sh b =
      if b.length > dataStart m ∧
      ((Mode.isEnabled m Mode.WITH_VERSION = true →
        convertEndian host m 8 (ofHost host (b.take 8)) = th.toNat) ∧
      (Mode.isEnabled m Mode.WITH_VERSION = false →
        Mode.isEnabled m Mode.WITH_STATIC_VERSION = true →
        convertEndian host m 8 (ofHost host (b.take 8)) = sh.toNat)) ∧
      (Mode.isEnabled m Mode.WITH_INTEGRITY = true →
        convertEndian host m 8 (ofHost host ((b.drop (integrityStart m)).take 8)) =
          (fnv BASE_HASH (b.drop (dataStart m))).toNat)
      then .ok () else .error .exn := by
  unfold check
  by_cases hlen : b.length > dataStart m
  · rw [checkVersion_eq host m th sh b hlen, checkIntegrity_eq host m b hlen]
    have e0 : decide (b.length > dataStart m) = true := by simpa using hlen
    rw [e0]
    simp only [verify_true, bind, Except.bind, hlen, true_and]
    split
    · next err heq =>
      split at heq
      · cases heq
      · next h => cases heq; rw [if_neg (fun hc => h hc.1)]
    · next u heq =>
      split at heq
      · next h =>
        split
        · next h2 => rw [if_pos ⟨h, h2⟩]
        · next h2 => rw [if_neg (fun hc => h2 hc.2)]
      · cases heq
  · have : decide (b.length > dataStart m) = false := by simpa using hlen
    rw [this, if_neg (fun hc => hlen hc.1)]
    rfl

theorem check_ok_iff (host : Endian) (m : Mode) (th sh : HashT) (b : List Byte) :
    check host m th sh b = .ok () ↔
      b.length > dataStart m ∧
      (Mode.isEnabled m Mode.WITH_VERSION = true →
        convertEndian host m 8 (ofHost host (b.take 8)) = th.toNat) ∧
      (Mode.isEnabled m Mode.WITH_VERSION = false →
        Mode.isEnabled m Mode.WITH_STATIC_VERSION = true →
        convertEndian host m 8 (ofHost host (b.take 8)) = sh.toNat) ∧
      (Mode.isEnabled m Mode.WITH_INTEGRITY = true →
        convertEndian host m 8 (ofHost host ((b.drop (integrityStart m)).take 8)) =
          (fnv BASE_HASH (b.drop (dataStart m))).toNat) := by
  rw [check_eq]
  split
  · next h => exact ⟨fun _ => ⟨h.1, h.2.1.1, h.2.1.2, h.2.2⟩, fun _ => rfl⟩
  · next h => exact ⟨fun hc => (nomatch hc), fun hc => absurd ⟨hc.1, ⟨hc.2.1, hc.2.2.1⟩, hc.2.2.2⟩ h⟩

theorem check_error_exn (host : Endian) (m : Mode) (th sh : HashT) (b : List Byte)
    (h : check host m th sh b ≠ .ok ()) : check host m th sh b = .error .exn := by
  rw [check_eq] at h ⊢
  split
  · next hc => rw [if_pos hc] at h; exact absurd rfl h
  · rfl

/-- The header check of deserialization accepts or throws; it never reads out of bounds, for any
byte string. -/
theorem C04_check_no_ub (host : Endian) (m : Mode) (th sh : HashT) (b : List Byte) :
    check host m th sh b = .ok () ∨ check host m th sh b = .error .exn := by
  by_cases h : check host m th sh b = .ok ()
  · exact Or.inl h
  · exact Or.inr (check_error_exn host m th sh b h)

theorem take_diff {pre post : List Byte} {x y : Byte} (n : Nat) (h : pre.length < n) (hxy : x ≠ y) :
    (pre ++ x :: post).take n ≠ (pre ++ y :: post).take n := by
  intro he
  have h1 := congrArg (fun l => l[pre.length]?) he
  simp [List.getElem?_take, h] at h1
  exact hxy h1

theorem take_same {pre post : List Byte} {x y : Byte} (n : Nat) (h : n ≤ pre.length) :
    (pre ++ x :: post).take n = (pre ++ y :: post).take n := by
  rw [List.take_append_of_le_length h, List.take_append_of_le_length h]

/-- **C04** With integrity enabled, if a buffer is accepted by the header check, then every buffer
obtained from it by changing exactly one byte at or behind the stored checksum is rejected. -/
theorem C04_corruption_detected (host : Endian) (m : Mode) (th sh : HashT)
    (pre post : List Byte) (x y : Byte) (hxy : x ≠ y)
    (hint : Mode.isEnabled m Mode.WITH_INTEGRITY = true)
    (hpos : integrityStart m ≤ pre.length)
    (hok : check host m th sh (pre ++ x :: post) = .ok ()) :
    check host m th sh (pre ++ y :: post) = .error .exn := by
  apply check_error_exn
  intro hok'
  obtain ⟨_, _, _, h1⟩ := (check_ok_iff _ _ _ _ _).1 hok
  obtain ⟨_, _, _, h2⟩ := (check_ok_iff _ _ _ _ _).1 hok'
  have h1 := h1 hint
  have h2 := h2 hint
  have hds : dataStart m = integrityStart m + 8 := by simp [dataStart, hint]
  by_cases hp : dataStart m ≤ pre.length
  · -- corruption in the payload
    have e1 : ((pre ++ x :: post).drop (integrityStart m)).take 8 =
        ((pre ++ y :: post).drop (integrityStart m)).take 8 := by
      rw [List.drop_append_of_le_length hpos, List.drop_append_of_le_length hpos]
      exact take_same 8 (by simp; omega)
    rw [e1, h2, List.drop_append_of_le_length hp, List.drop_append_of_le_length hp] at h1
    exact C04_single_byte_changes_hash (pre.drop (dataStart m)) post x y hxy
      (BitVec.eq_of_toNat_eq h1.symm)
  · -- corruption in the stored checksum
    have e1 : (pre ++ x :: post).drop (dataStart m) = (pre ++ y :: post).drop (dataStart m) := by
      rw [List.drop_append, List.drop_append]
      have : dataStart m - pre.length = (dataStart m - pre.length - 1) + 1 := by omega
      rw [this]; simp
    rw [e1, ← h2] at h1
    have hne : ((pre ++ x :: post).drop (integrityStart m)).take 8 ≠
        ((pre ++ y :: post).drop (integrityStart m)).take 8 := by
      rw [List.drop_append_of_le_length hpos, List.drop_append_of_le_length hpos]
      exact take_diff 8 (by simp; omega) hxy
    have hL : ∀ z : Byte, (((pre ++ z :: post).drop (integrityStart m)).take 8).length = 8 := by
      intro z
      have h3 := ((check_ok_iff _ _ _ _ _).1 hok).1
      simp at h3 ⊢
      omega
    apply hne
    have lt1 := ofHost_lt host (((pre ++ x :: post).drop (integrityStart m)).take 8)
    have lt2 := ofHost_lt host (((pre ++ y :: post).drop (integrityStart m)).take 8)
    rw [hL] at lt1 lt2
    have h3 := congrArg (convertEndian host m 8) h1
    rw [convertEndian_convertEndian lt1, convertEndian_convertEndian lt2] at h3
    have h4 := congrArg (hostBytes host 8) h3
    rwa [hostBytes_ofHost host (hL x), hostBytes_ofHost host (hL y)] at h4

/-- **C04** Likewise a single changed byte in the version field is rejected when a version is
checked. -/
theorem C04_version_corruption_detected (host : Endian) (m : Mode) (th sh : HashT)
    (pre post : List Byte) (x y : Byte) (hxy : x ≠ y)
    (hver : Mode.isEnabled m Mode.WITH_VERSION = true ∨
      Mode.isEnabled m Mode.WITH_STATIC_VERSION = true)
    (hpos : pre.length < 8)
    (hok : check host m th sh (pre ++ x :: post) = .ok ()) :
    check host m th sh (pre ++ y :: post) = .error .exn := by
  apply check_error_exn
  intro hok'
  obtain ⟨hl, hv1, hs1, _⟩ := (check_ok_iff _ _ _ _ _).1 hok
  obtain ⟨_, hv2, hs2, _⟩ := (check_ok_iff _ _ _ _ _).1 hok'
  have h8 : 8 ≤ (pre ++ x :: post).length := by
    have : integrityStart m = 8 := by rcases hver with h | h <;> simp [integrityStart, h]
    simp only [dataStart, this] at hl; omega
  have heq : convertEndian host m 8 (ofHost host ((pre ++ x :: post).take 8)) =
      convertEndian host m 8 (ofHost host ((pre ++ y :: post).take 8)) := by
    cases hv : Mode.isEnabled m Mode.WITH_VERSION
    · have hs : Mode.isEnabled m Mode.WITH_STATIC_VERSION = true := by simpa [hv] using hver
      rw [hs1 hv hs, hs2 hv hs]
    · rw [hv1 hv, hv2 hv]
  have hL : ∀ z : Byte, ((pre ++ z :: post).take 8).length = 8 := by
    intro z; simp at h8 ⊢; omega
  have lt1 := ofHost_lt host ((pre ++ x :: post).take 8)
  have lt2 := ofHost_lt host ((pre ++ y :: post).take 8)
  rw [hL] at lt1 lt2
  have h3 := congrArg (convertEndian host m 8) heq
  rw [convertEndian_convertEndian lt1, convertEndian_convertEndian lt2] at h3
  have h4 := congrArg (hostBytes host 8) h3
  rw [hostBytes_ofHost host (hL x), hostBytes_ofHost host (hL y)] at h4
  exact take_diff 8 hpos hxy h4

/-- **C04** The buffer produced by `serialize` passes the header check of `deserialize` with the
same mode (writing modes do not use the `SKIP_*` flags), on the same host order. -/
theorem C04_original_accepted (host : Endian) (m : Mode) (th sh : HashT) (payload : List Byte)
    (hp : payload ≠ [])
    (hsv : Mode.isEnabled m Mode.SKIP_VERSION = false)
    (hsi : Mode.isEnabled m Mode.SKIP_INTEGRITY = false) :
    check host m th sh (finish host m th sh payload) = .ok () := by
  have hpl : 0 < payload.length := List.length_pos_iff.2 hp
  have hvlen : (versionBytes host m th sh).length = integrityStart m := by
    unfold versionBytes integrityStart
    cases hv : Mode.isEnabled m Mode.WITH_VERSION <;>
    cases hs : Mode.isEnabled m Mode.WITH_STATIC_VERSION <;> simp [hsv]
  have hclen : (versionBytes host m th sh ++ checksumBytes host m payload).length = dataStart m := by
    rw [List.length_append, hvlen]
    unfold checksumBytes dataStart
    cases hi : Mode.isEnabled m Mode.WITH_INTEGRITY <;> simp [hsi]
  rw [check_ok_iff]
  refine ⟨?_, ?_, ?_, ?_⟩
  · unfold finish; rw [List.length_append, hclen]; omega
  · intro hv
    have : (finish host m th sh payload).take 8 =
        hostBytes host 8 (convertEndian host m 8 th.toNat) := by
      simp [finish, versionBytes, hv, List.append_assoc]
    rw [this, ofHost_hostBytes (convertEndian_lt (hash_lt th)), convertEndian_convertEndian (hash_lt th)]
  · intro hv hs
    have : (finish host m th sh payload).take 8 =
        hostBytes host 8 (convertEndian host m 8 sh.toNat) := by
      simp [finish, versionBytes, hv, hs, List.append_assoc]
    rw [this, ofHost_hostBytes (convertEndian_lt (hash_lt sh)), convertEndian_convertEndian (hash_lt sh)]
  · intro hi
    have hb : checksumBytes host m payload =
        hostBytes host 8 (convertEndian host m 8 (fnv BASE_HASH payload).toNat) := by
      simp [checksumBytes, hi]
    have h1 : ((finish host m th sh payload).drop (integrityStart m)).take 8 =
        hostBytes host 8 (convertEndian host m 8 (fnv BASE_HASH payload).toNat) := by
      rw [← hvlen]; unfold finish; rw [hb, take_drop_append_mid _ _ _ _ (by simp)]
    have h2 : (finish host m th sh payload).drop (dataStart m) = payload := by
      rw [← hclen]; unfold finish; simp
    rw [h1, h2, ofHost_hostBytes (convertEndian_lt (hash_lt _)), convertEndian_convertEndian (hash_lt _)]

example : check .little (Mode.orAll [Mode.WITH_VERSION, Mode.WITH_INTEGRITY]) 5#64 7#64
    (finish .little (Mode.orAll [Mode.WITH_VERSION, Mode.WITH_INTEGRITY]) 5#64 7#64 [1#8, 2#8]) = .ok () :=
  C04_original_accepted _ _ _ _ _ (by decide) (by decide) (by decide)

/-! ## C06 -/

/-- **C06** Endian conversion there and back is the identity on every `n`-byte integer, for both
hosts and every mode. -/
theorem C06_convert_involutive (host : Endian) (m : Mode) (n v : Nat) (h : v < 256 ^ n) :
    convertEndian host m n (convertEndian host m n v) = v :=
  convertEndian_convertEndian h

/-- **C06** The stored bytes depend only on the mode, not on the host: big-endian modes store the
most significant byte first, others least significant first. -/
theorem C06_stored_bytes_host_independent (host : Endian) (m : Mode) (n v : Nat) :
    hostBytes host n (convertEndian host m n v) =
      if Mode.isEnabled m Mode.SERIALIZE_BIG_ENDIAN then (leBytes n v).reverse else leBytes n v := by
  unfold convertEndian conversionNecessary hostBytes
  cases host <;> cases Mode.isEnabled m Mode.SERIALIZE_BIG_ENDIAN <;>
    simp [leBytes_endianSwap]

/-- **C06** A value written on one host is read back on any other host (same mode). -/
theorem C06_cross_host (h1 h2 : Endian) (m : Mode) (n v : Nat) (h : v < 256 ^ n) :
    convertEndian h2 m n (ofHost h2 (hostBytes h1 n (convertEndian h1 m n v))) = v := by
  rw [C06_stored_bytes_host_independent h1 m n v, ← C06_stored_bytes_host_independent h2 m n v,
    ofHost_hostBytes (convertEndian_lt h), convertEndian_convertEndian h]

example : hostBytes .little 4 (convertEndian .little Mode.SERIALIZE_BIG_ENDIAN 4 0x01020304) =
    [1#8, 2#8, 3#8, 4#8] := by decide

/-! ## C34 -/

mutual
/-- Specification: two keys are equal as values, whatever string types they use. -/
inductive SameKey {H : Type} : Key H → Key H → Prop
  | scalar (v) : SameKey (.scalar v) (.scalar v)
  | text (r r' cs) : SameKey (.text r cs) (.text r' cs)
  | seq (es es') : SameKeys es es' → SameKey (.seq es) (.seq es')
  | variant (i v v') : SameKey v v' → SameKey (.variant i v) (.variant i v')
/-- Element-wise version of `SameKey`. -/
inductive SameKeys {H : Type} : List (Key H) → List (Key H) → Prop
  | nil : SameKeys [] []
  | cons (e e' es es') : SameKey e e' → SameKeys es es' → SameKeys (e :: es) (e' :: es')
end

mutual
/-- Text contains no NUL and char arrays are exactly as long as their text (string literals). -/
def Key.Proper {H : Type} : Key H → Prop
  | .scalar _ => True
  | .text r cs => (∀ c ∈ cs, c ≠ 0#8) ∧ (∀ p, r = .array p → p = 0)
  | .seq es => Key.AllProper es
  | .variant _ v => v.Proper
/-- `Key.Proper` for all elements. -/
def Key.AllProper {H : Type} : List (Key H) → Prop
  | [] => True
  | e :: es => e.Proper ∧ Key.AllProper es
end

theorem takeWhile_all {α} (p : α → Bool) (l : List α) (h : ∀ a ∈ l, p a = true) :
    l.takeWhile p = l := by
  induction l with
  | nil => rfl
  | cons x xs ih =>
    rw [List.takeWhile_cons, h x (by simp), if_pos rfl, ih (fun a ha => h a (by simp [ha]))]

theorem hash_text_proper (r : TextRepr) (cs : List Byte) (seed : HashT)
    (h : (∀ c ∈ cs, c ≠ 0#8) ∧ (∀ p, r = .array p → p = 0)) : hashText r cs seed = fnv seed cs := by
  cases r with
  | sized =>
    simp only [hashText]
    split
    · next hl => rw [List.length_eq_zero_iff.1 hl]; rfl
    · rfl
  | array p => have := h.2 p rfl; subst this; simp [hashText]
  | cptr =>
    simp only [hashText]
    rw [takeWhile_all]
    intro a ha
    simpa using h.1 a ha

theorem sameKey_hashG {H : Type} (comb : H → H → H) (txt : TextRepr → List Byte → H → H)
    (htxt : ∀ r r' cs seed, ((∀ c ∈ cs, c ≠ 0#8) ∧ (∀ p, r = .array p → p = 0)) →
      ((∀ c ∈ cs, c ≠ 0#8) ∧ (∀ p, r' = .array p → p = 0)) → txt r cs seed = txt r' cs seed)
    {a b : Key H} (h : SameKey a b) :
    a.Proper → b.Proper → ∀ seed : H, hashKeyG comb txt a seed = hashKeyG comb txt b seed := by
  refine SameKey.rec
    (motive_1 := fun a b _ => a.Proper → b.Proper →
      ∀ seed : H, hashKeyG comb txt a seed = hashKeyG comb txt b seed)
    (motive_2 := fun a b _ => Key.AllProper a → Key.AllProper b →
      ∀ seed : H, hashKeysG comb txt a seed = hashKeysG comb txt b seed) ?_ ?_ ?_ ?_ ?_ ?_ h
  · intro v _ _ seed; rfl
  · intro r r' cs ha hb seed
    simp only [Key.Proper] at ha hb
    simp only [hashKeyG]
    exact htxt r r' cs seed ha hb
  · intro es es' _ ih ha hb seed
    simp only [Key.Proper] at ha hb
    simp only [hashKeyG]
    exact ih ha hb seed
  · intro i v v' _ ih ha hb seed
    simp only [Key.Proper] at ha hb
    simp only [hashKeyG]
    exact ih ha hb _
  · intro _ _ seed; rfl
  · intro e e' es es' _ _ ih1 ih2 ha hb seed
    simp only [Key.AllProper] at ha hb
    simp only [hashKeysG]
    rw [ih1 ha.1 hb.1 seed]
    exact ih2 ha.2 hb.2 _

/-- **C34 (partial)** Equal keys hash equally for every nesting of scalars, text, containers,
aggregates and variants, whichever string representation each side uses — provided the text has no
NUL characters and `char[N]` keys are string literals (exactly `N-1` characters of text).
Missing for the full claim: `char[N]` buffers longer than their text and mixed-width negative
integers, where it is false (see the `_violated` theorems). -/
theorem C34_equal_keys_hash_equal_partial (a b : Key HashT) (h : SameKey a b) (ha : a.Proper)
    (hb : b.Proper) (seed : HashT) : hashKey a seed = hashKey b seed :=
  sameKey_hashG hashCombine hashText
    (fun r r' cs seed h1 h2 => by
      rw [hash_text_proper r cs seed h1, hash_text_proper r' cs seed h2]) h ha hb seed

/-- **C34 violated** A `char[4]` buffer holding `"a"` equals the string `"a"` but hashes differently
(`sizeof(el) - 1` characters are hashed), so heterogeneous lookup with it misses. -/
theorem C34_char_buffer_violated :
    SameKey (H := HashT) (.text (.array 2) [97#8]) (.text .sized [97#8]) ∧
    hashKey (.text (.array 2) [97#8]) BASE_HASH ≠ hashKey (.text .sized [97#8]) BASE_HASH :=
  ⟨.text _ _ _, by simp only [hashKey, hashKeyG]; decide +kernel⟩

/-- `static_cast<hash_t>` of a signed 32-bit value (sign extension) -/
def castI32 (v : BitVec 32) : HashT := v.signExtend 64
/-- `static_cast<hash_t>` of an unsigned 32-bit value (zero extension) -/
def castU32 (v : BitVec 32) : HashT := v.setWidth 64

/-- **C34 violated** A negative `int` and the `uint32_t` with the same bit pattern are mutually
convertible (hence accepted for heterogeneous lookup, hashing.h:85) and compare equal in C++, but hash
differently, whatever the seed. -/
theorem C34_mixed_sign_violated (v : BitVec 32) (h : v.msb = true) (seed : HashT) :
    hashKey (.scalar (castI32 v)) seed ≠ hashKey (.scalar (castU32 v)) seed := by
  intro he
  have e : castI32 v = castU32 v := hashCombine_inj_val he
  have e63 : (v.signExtend 64).getLsbD 63 = (v.setWidth 64).getLsbD 63 := congrArg (·.getLsbD 63) e
  rw [BitVec.getLsbD_signExtend, BitVec.getLsbD_setWidth, h, BitVec.getLsbD_of_ge v 63 (by omega)] at e63
  simp at e63

example : hashKey (.scalar (castI32 0xFFFFFFFF#32)) BASE_HASH ≠
    hashKey (.scalar (castU32 0xFFFFFFFF#32)) BASE_HASH := C34_mixed_sign_violated _ (by decide) _

example : (Key.seq [.text .cptr [97#8, 98#8], .scalar 5] : Key Nat).Proper := by
  simp [Key.Proper, Key.AllProper]

end Cista.Hash

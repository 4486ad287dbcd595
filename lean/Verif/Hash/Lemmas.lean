import Verif.Hash.Model

set_option linter.unusedSimpArgs false

namespace Cista.Hash
open Cista.Arith (Mode)

theorem fnv_append (h : HashT) (a b : List Byte) : fnv h (a ++ b) = fnv (fnv h a) b := by
  simp [fnv, List.foldl_append]

@[simp] theorem fnv_nil (h : HashT) : fnv h [] = h := rfl

theorem fnv_cons (h : HashT) (x : Byte) (s : List Byte) :
    fnv h (x :: s) = fnv (hashCombine h (x.setWidth 64)) s := rfl

/-- Multiplicative inverse of the FNV prime modulo 2^64. -/
theorem fnvPrime_inv : fnvPrime * 14886173955864302971#64 = 1#64 := by decide

theorem mul_prime_inj {a b : HashT} (h : a * fnvPrime = b * fnvPrime) : a = b := by
  have := congrArg (· * 14886173955864302971#64) h
  simpa [BitVec.mul_assoc, fnvPrime_inv] using this

theorem hashCombine_inj_state {h h' x : HashT} (he : hashCombine h x = hashCombine h' x) : h = h' := by
  have := mul_prime_inj he
  have := congrArg (· ^^^ x) this
  simpa [BitVec.xor_assoc] using this

theorem hashCombine_inj_val {h x y : HashT} (he : hashCombine h x = hashCombine h y) : x = y := by
  have := mul_prime_inj he
  have := congrArg (h ^^^ ·) this
  simpa [← BitVec.xor_assoc] using this

theorem fnv_inj_state (s : List Byte) {h h' : HashT} (he : fnv h s = fnv h' s) : h = h' := by
  induction s generalizing h h' with
  | nil => simpa using he
  | cons x s ih =>
    rw [fnv_cons, fnv_cons] at he
    exact hashCombine_inj_state (ih he)

theorem setWidth_inj {a b : Byte} (h : a.setWidth 64 = b.setWidth 64) : a = b := by
  have := congrArg BitVec.toNat h
  simp only [BitVec.toNat_setWidth] at this
  have ha := a.isLt
  have hb := b.isLt
  rw [Nat.mod_eq_of_lt (by omega), Nat.mod_eq_of_lt (by omega)] at this
  exact BitVec.eq_of_toNat_eq this

theorem fnv_ne_of_one_diff (h : HashT) (pre post : List Byte) (x y : Byte) (hxy : x ≠ y) :
    fnv h (pre ++ x :: post) ≠ fnv h (pre ++ y :: post) := by
  rw [fnv_append, fnv_append, fnv_cons, fnv_cons]
  intro he
  exact hxy (setWidth_inj (hashCombine_inj_val (fnv_inj_state post he)))

theorem chunkLoop_ok (cs : Nat) (hc : 0 < cs) (off rem : Nat) :
    ∃ l, chunkLoop cs off rem = .ok l ∧ (l.map (·.2)).sum = rem := by
  induction rem using Nat.strongRecOn generalizing off with
  | ind rem ih =>
    unfold chunkLoop
    by_cases hr : rem = 0
    · exact ⟨[], by simp [hr], by simp [hr]⟩
    · obtain ⟨l, h1, h2⟩ := ih (rem - min rem cs) (by omega) (off + min rem cs)
      refine ⟨(off, min rem cs) :: l, ?_, ?_⟩
      · simp [hr, show cs ≠ 0 by omega, h1, bind, Except.bind, pure, Except.pure]
      · simp [h2]; omega

theorem checksumBlock_ok (content : List Byte) (pos n : Nat) (h : HashT)
    (hb : pos + n ≤ content.length) :
    checksumBlock content (pos, h) n = .ok (pos + n, fnv h ((content.drop pos).take n)) := by
  have hlen : ((content.drop pos).take n).length = n := by simp; omega
  simp only [checksumBlock, hlen, decide_true, verify_true, bind, Except.bind, pure, Except.pure]

theorem fold_checksumBlock (content : List Byte) (l : List (Nat × Nat)) (pos : Nat) (h : HashT)
    (hb : pos + (l.map (·.2)).sum ≤ content.length) :
    l.foldlM (fun st c => checksumBlock content st c.2) (pos, h) =
      .ok (pos + (l.map (·.2)).sum, fnv h ((content.drop pos).take (l.map (·.2)).sum)) := by
  induction l generalizing pos h with
  | nil => simp [pure, Except.pure]
  | cons c l ih =>
    simp only [List.map_cons, List.sum_cons] at hb
    rw [List.foldlM_cons, checksumBlock_ok _ _ _ _ (by omega)]
    simp only [bind, Except.bind]
    rw [ih (pos + c.2) _ (by omega), ← fnv_append]
    simp only [List.map_cons, List.sum_cons]
    congr 2
    · omega
    · rw [List.take_add, List.drop_drop]

theorem take_drop_append_mid {α} (a b c : List α) (n : Nat) (hn : b.length = n) :
    ((a ++ b ++ c).drop a.length).take n = b := by
  subst hn
  simp [List.append_assoc]

theorem readU64_at (host : Endian) (a c : List Byte) (v off : Nat) (ho : a.length = off)
    (hv : v < 256 ^ 8) : readU64 host (a ++ hostBytes host 8 v ++ c) off = .ok v := by
  subst ho
  unfold readU64
  have : decide (a.length + 8 ≤ (a ++ hostBytes host 8 v ++ c).length) = true := by simp
  rw [this]
  simp only [require_true, bind, Except.bind, pure, Except.pure]
  rw [take_drop_append_mid _ _ _ _ (by simp), ofHost_hostBytes hv]

theorem hash_lt (h : HashT) : h.toNat < 256 ^ 8 := by
  have := h.isLt
  have e : (256:Nat) ^ 8 = 2 ^ 64 := by decide
  omega

end Cista.Hash

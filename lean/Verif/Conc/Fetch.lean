import Verif.Basic

/-!
# C144 — what `fetch_or` and `fetch_and` return

Source: `/repo/include/cista/atomic.h:13-31`.  Both functions have three implementations, chosen by the compiler.  Every call is one
atomic read-modify-write of one word, so that the calls of any number of threads happen in some order (the modification order of
the word, also for relaxed operations): a schedule is a list of calls with the threads that make them.
-/
namespace Cista.Conc.Fetch

/-- The branches of the `#if` in atomic.h:14-20, 24-30. -/
inductive Impl where
  /-- `_InterlockedOr64`, `_InterlockedAnd64` (MSVC) -/
  | interlocked
  /-- `std::atomic_ref` (C++20) -/
  | atomicRef
  /-- `__atomic_or_fetch`, `__atomic_and_fetch` (GCC and Clang before C++20) -/
  | builtin
  deriving DecidableEq

/-- A call with its mask. -/
inductive Call where
  | or (mask : BitVec 64)
  | and (mask : BitVec 64)
  deriving DecidableEq

/-- The word after a call; atomic.h:15, 17, 19, 25, 27, 29. -/
def Call.write : Call → BitVec 64 → BitVec 64
  | .or m, c => c ||| m
  | .and m, c => c &&& m

/-- atomic.h:13-31 `fetch_or`, `fetch_and`: the word afterwards and the result.  `_Interlocked…` and `atomic_ref::fetch_…` return the
value before the change, `__atomic_…_fetch` the value after it. -/
def Call.exec (i : Impl) (c : BitVec 64) (k : Call) : BitVec 64 × BitVec 64 :=
  match i with
  | .interlocked | .atomicRef => (k.write c, c)
  | .builtin => (k.write c, k.write c)

/-- Run a schedule: the word at the end, and every call with its thread and its result. -/
def run (i : Impl) : BitVec 64 → List (Nat × Call) → BitVec 64 × List (Nat × Call × BitVec 64)
  | c, [] => (c, [])
  | c, (t, k) :: s =>
    let r := k.exec i c
    let q := run i r.1 s
    (q.1, (t, k, r.2) :: q.2)

/-! ## Specification -/

/-- The call sets bit `j` and was told that it was unset before: the caller has won the bit. -/
def Wins (j : Nat) : Nat × Call × BitVec 64 → Bool
  | (_, .or m, r) => m.getLsbD j && !r.getLsbD j
  | _ => false

/-- The call clears bit `j` and was told that it was set before: the caller has given the bit back. -/
def Returns (j : Nat) : Nat × Call × BitVec 64 → Bool
  | (_, .and m, r) => !m.getLsbD j && r.getLsbD j
  | _ => false

/-- What a bit is after a schedule: written by the last call whose mask concerns it. -/
def bitAfter (j : Nat) : Bool → List (Nat × Call) → Bool
  | b, [] => b
  | b, (_, .or m) :: s => bitAfter j (b || m.getLsbD j) s
  | b, (_, .and m) :: s => bitAfter j (b && m.getLsbD j) s

/-! ## C144 -/

theorem exec_fst (i : Impl) (c : BitVec 64) (k : Call) : (k.exec i c).1 = k.write c := by cases i <;> rfl

/-- **C144** Whatever the implementation and the order of the calls: every bit of the word is what the calls whose masks
concern it make of it, and all the other bits stay as they are. -/
theorem C144_word (i : Impl) (c : BitVec 64) (s : List (Nat × Call)) (j : Nat) :
    (run i c s).1.getLsbD j = bitAfter j (c.getLsbD j) s := by
  induction s generalizing c with
  | nil => rfl
  | cons e s ih =>
    obtain ⟨t, k⟩ := e
    show (run i (k.exec i c).1 s).1.getLsbD j = _
    rw [ih, exec_fst]
    cases k with
    | or m => simp [Call.write, bitAfter, BitVec.getLsbD_or]
    | and m => simp [Call.write, bitAfter, BitVec.getLsbD_and]

/-- **C144 (partial)** With MSVC or C++20: in every schedule the winners of a bit and those who give it back alternate: the number
of calls that won it is the number of calls that gave it back, plus one if the bit is set at the end and was not at the
beginning, minus one in the opposite case.  Missing: `__atomic_…_fetch` (`C144_builtin_violated`). -/
theorem C144_winners_partial {i : Impl} (hi : i ≠ .builtin) (c : BitVec 64) (s : List (Nat × Call)) (j : Nat) :
    (run i c s).2.countP (Wins j) + (c.getLsbD j).toNat =
      (run i c s).2.countP (Returns j) + ((run i c s).1.getLsbD j).toNat := by
  induction s generalizing c with
  | nil => simp [run]
  | cons e s ih =>
    obtain ⟨t, k⟩ := e
    have h2 : (k.exec i c).2 = c := by cases i <;> first | rfl | exact absurd rfl hi
    have h := ih (k.exec i c).1
    rw [exec_fst] at h
    simp only [run, List.countP_cons, h2, exec_fst]
    cases k with
    | or m =>
      simp only [Call.write, BitVec.getLsbD_or] at h
      simp only [Wins, Returns, Call.write, Bool.false_eq_true, if_false]
      rcases Bool.eq_false_or_eq_true (c.getLsbD j) with hc | hc <;>
        rcases Bool.eq_false_or_eq_true (m.getLsbD j) with hm | hm <;> simp [hc, hm] at h ⊢ <;> omega
    | and m =>
      simp only [Call.write, BitVec.getLsbD_and] at h
      simp only [Wins, Returns, Call.write, Bool.false_eq_true, if_false]
      rcases Bool.eq_false_or_eq_true (c.getLsbD j) with hc | hc <;>
        rcases Bool.eq_false_or_eq_true (m.getLsbD j) with hm | hm <;> simp [hc, hm] at h ⊢ <;> omega

/-- **C144 (partial)** With MSVC or C++20: if threads race to set an unset bit that nobody clears, exactly one call wins. -/
theorem C144_race_partial {i : Impl} (hi : i ≠ .builtin) (c : BitVec 64) (s : List (Nat × Call)) (j : Nat)
    (h0 : c.getLsbD j = false) (hs : s ≠ []) (hor : ∀ e ∈ s, ∃ m, e.2 = .or m ∧ m.getLsbD j = true) :
    (run i c s).2.countP (Wins j) = 1 := by
  have hw := C144_winners_partial hi c s j
  have hret : ∀ (s : List (Nat × Call)) (c : BitVec 64), (∀ e ∈ s, ∃ m, e.2 = .or m ∧ m.getLsbD j = true) →
      (run i c s).2.countP (Returns j) = 0 ∧ (c.getLsbD j = true ∨ s ≠ [] → (run i c s).1.getLsbD j = true) := by
    intro s
    induction s with
    | nil => intro c _; exact ⟨rfl, fun h => h.resolve_right fun h => h rfl⟩
    | cons e s ih =>
      intro c hor
      obtain ⟨t, k⟩ := e
      obtain ⟨m, hk, hm⟩ := hor (t, k) (by simp)
      dsimp only at hk
      subst hk
      obtain ⟨g1, g2⟩ := ih ((Call.or m).exec i c).1 fun e he => hor e (by simp [he])
      refine ⟨?_, fun _ => g2 (Or.inl ?_)⟩
      · simp only [run, List.countP_cons, Returns, Bool.false_eq_true, if_false]; exact g1
      · rw [exec_fst]; simp [Call.write, hm]
  obtain ⟨g1, g2⟩ := hret s c hor
  rw [g1, g2 (Or.inr hs), h0] at hw
  simpa using hw

/-- **C144 (violated)** With GCC and Clang before C++20 nobody ever wins or gives back a bit: the results are the values after the
change, in every schedule and for every bit. -/
theorem C144_builtin_violated (c : BitVec 64) (s : List (Nat × Call)) (j : Nat) :
    (run .builtin c s).2.countP (Wins j) = 0 ∧ (run .builtin c s).2.countP (Returns j) = 0 := by
  induction s generalizing c with
  | nil => exact ⟨rfl, rfl⟩
  | cons e s ih =>
    obtain ⟨t, k⟩ := e
    obtain ⟨g1, g2⟩ := ih (k.exec .builtin c).1
    simp only [run, List.countP_cons, g1, g2, Nat.zero_add]
    cases k with
    | or m => cases hm : m.getLsbD j <;> simp [Call.exec, Call.write, Wins, Returns, hm]
    | and m => cases hm : m.getLsbD j <;> simp [Call.exec, Call.write, Wins, Returns, hm]

/-! ## Examples -/

/-- Threads 0 and 1 race for bit 3, thread 0 gives it back, thread 1 gets it. -/
def race : List (Nat × Call) := [(0, .or 8#64), (1, .or 8#64), (0, .and (~~~ 8#64)), (1, .or 8#64)]

example : (run .atomicRef 5#64 race) =
    (13#64, [(0, .or 8#64, 5#64), (1, .or 8#64, 13#64), (0, .and (~~~ 8#64), 13#64), (1, .or 8#64, 5#64)]) := by decide

example : (run .atomicRef 5#64 race).2.countP (Wins 3) = 2 ∧ (run .atomicRef 5#64 race).2.countP (Returns 3) = 1 ∧
    (run .builtin 5#64 race).2.countP (Wins 3) = 0 ∧ (run .builtin 5#64 race).1 = 13#64 := by decide

example : ∀ e ∈ [((0 : Nat), Call.or 8#64), (1, .or 9#64)], ∃ m, e.2 = .or m ∧ m.getLsbD 3 = true := by
  intro e he
  simp only [List.mem_cons, List.not_mem_nil, or_false] at he
  rcases he with rfl | rfl
  · exact ⟨_, rfl, by decide⟩
  · exact ⟨_, rfl, by decide⟩

end Cista.Conc.Fetch

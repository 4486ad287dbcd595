import Verif.Bits.Props

/-!
# Concurrent operations on shared words

Threads interleave at the granularity of single atomic accesses (sequentially consistent
interleaving semantics; weaker memory orders are not modelled — every operation below touches a
single atomic object, for which the modification order is total anyway).
A *schedule* is an arbitrary list of events; `compare_exchange_weak` may fail spuriously whenever
the schedule says so.
-/
namespace Cista.Conc

open Cista.Bits

/-! ## get_next -/

/-- Control state of one thread inside `get_next`. -/
inductive NextPc where
  /-- not inside a call / at the head of the `while (true)` loop, about to load -/
  | idle
  /-- line 221 executed: `expected` is loaded -/
  | loaded (expected : Nat)
  /-- line 222-225 executed: `idx` found, about to compare-exchange -/
  | found (expected idx : Nat)

/-- Shared state: the atomic `next`, the threads, and the results returned so far (oldest first). -/
structure NextState where
  next : Nat
  pc : Nat → NextPc
  results : List (Nat × Option Nat)

/-- One step of thread `t`; include/cista/containers/bitvec.h:219-230.
`spurious` tells whether a `compare_exchange_weak` fails spuriously.
Simplification: `Key` conversions of `expected` (line 222) are the identity (no index of the vector
exceeds the key type). -/
def nextStep {w : Nat} (b : Bitvec w) (s : NextState) (t : Nat) (spurious : Bool) : Res NextState :=
  match s.pc t with
  | .idle => .ok { s with pc := upd s.pc t (.loaded s.next) }
  | .loaded e => do
    match ← b.nextSetBit e with
    | none => .ok { s with pc := upd s.pc t .idle, results := s.results ++ [(t, none)] }
    | some i => .ok { s with pc := upd s.pc t (.found e i) }
  | .found e i =>
    if s.next = e ∧ spurious = false then
      .ok { next := i + 1, pc := upd s.pc t .idle, results := s.results ++ [(t, some i)] }
    else
      .ok { s with pc := upd s.pc t .idle }

/-- Run a schedule. -/
def nextRun {w : Nat} (b : Bitvec w) (s : NextState) : List (Nat × Bool) → Res NextState
  | [] => .ok s
  | (t, sp) :: rest => do nextRun b (← nextStep b s t sp) rest

/-- Initial state: `next = 0`, nobody is inside a call. -/
def NextState.init : NextState := ⟨0, fun _ => .idle, []⟩

/-! ## fetch_min / fetch_max -/

/-- Control state of one thread inside `fetch_min` / `fetch_max`. -/
inductive ExPc where
  | idle
  /-- called, `load` not yet executed -/
  | start (val : Int)
  /-- inside the `while` loop with the local `old` -/
  | loop (old val : Int)

/-- The shared cell, the threads, the arguments of all calls begun and `(argument, returned value)`
of all calls finished, in this order. -/
structure ExState where
  cell : Int
  pc : Nat → ExPc
  started : List Int
  finished : List (Int × Int)

/-- Scheduler events: thread `t` begins a call, or performs its next atomic access. -/
inductive ExEv where
  | call (t : Nat) (val : Int)
  | step (t : Nat) (spurious : Bool)

/-- One event; include/cista/atomic.h:33-44 (`f = min`) and 46-57 (`f = max`).  Values are integers
(no arithmetic is performed on the 16-bit values, so no wrap-around is possible).
A failing compare-exchange loads the current value into `old`. -/
def exStep (f : Int → Int → Int) (s : ExState) : ExEv → ExState
  | .call t v => match s.pc t with
    | .idle => { s with pc := upd s.pc t (.start v), started := s.started ++ [v] }
    | _ => s
  | .step t sp => match s.pc t with
    | .idle => s
    | .start v =>
      if s.cell > v then { s with pc := upd s.pc t (.loop s.cell v) }
      else { s with pc := upd s.pc t .idle, finished := s.finished ++ [(v, s.cell)] }
    | .loop old v =>
      if s.cell = old ∧ sp = false then
        { s with cell := f old v, pc := upd s.pc t .idle, finished := s.finished ++ [(v, old)] }
      else { s with pc := upd s.pc t (.loop s.cell v) }

/-- Run a schedule. -/
def exRun (f : Int → Int → Int) (s : ExState) (evs : List ExEv) : ExState := evs.foldl (exStep f) s

/-- Nobody has called anything yet; the cell holds `c`. -/
def ExState.init (c : Int) : ExState := ⟨c, fun _ => .idle, [], []⟩

/-! ## Atomic bit writes -/

/-- Atomic `set<true>(i, val)`: one atomic read-modify-write of the block holding bit `i`;
include/cista/containers/bitvec.h:101-122 with include/cista/atomic.h:13-31. -/
def atomicSet {w : Nat} (b : Bitvec w) (i : Nat) (val : Bool) : Res (Bitvec w) := b.set i val

/-- Writes issued by threads (thread, index, value), in the order in which their atomic accesses
take effect. -/
def setRun {w : Nat} (b : Bitvec w) : List (Nat × Nat × Bool) → Res (Bitvec w)
  | [] => .ok b
  | (_, i, v) :: rest => do setRun (← atomicSet b i v) rest

end Cista.Conc

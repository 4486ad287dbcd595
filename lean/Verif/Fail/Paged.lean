import Verif.Paged.Props
import Verif.Fail.Prog

set_option linter.unusedSimpArgs false

/-!
# C135 — `paged_vecvec` when memory runs out

A vector operation that throws leaves its vector as it was (C101).  `fd`: growing `data_` fails, `fi`: growing `idx_` fails.
-/
namespace Cista.Paged

open Cista.Fail (Prog)

variable {c : Cfg}

/-- paged.h:63-75 `create_page`: `data_.resize`, if it is called, comes before any change.  `none`: it threw. -/
def Paged.createF (c : Cfg) (fd : Bool) (p : Paged) (n : Nat) : Res (Option (Page × Paged)) := do
  let r ← p.create c n
  if fd && r.2.data.length != p.data.length then return none
  return some r

/-- paged.h:52-61, paged_vecvec.h:158-162: does making room in bucket `i` grow `data_`?  (`create_page` is the first thing
that happens then.) -/
def PV.needs (c : Cfg) (v : PV) (i : Nat) : Res Bool := do
  let q ← v.page i
  let n := (q.size + 1) % 2 ^ 16
  if n ≤ q.cap then return false
  let r ← v.paged.create c n
  return r.2.data.length != v.paged.data.length

/-- paged_vecvec.h:158-171, 310-349 with failures: `true` if the call threw `std::bad_alloc`. -/
def VOp.execF (c : Cfg) (fd fi : Bool) (v : PV) : VOp → Res (PV × Bool)
  | .emplaceBack xs => do
    match ← v.paged.createF c fd (xs.length % 2 ^ 16) with
    | none => return (v, true)
    | some (q, p) =>
      let p ← p.copyIn c q xs.flatten
      return if fi then (⟨p, v.idx⟩, true) else (⟨p, v.idx ++ [q]⟩, false)
  | .emplaceBackEmpty => do
    match ← v.paged.createF c fd 0 with
    | none => return (v, true)
    | some (q, p) => return if fi then (⟨p, v.idx⟩, true) else (⟨p, v.idx ++ [q]⟩, false)
  | .insert k xs => do
    match ← v.paged.createF c fd (xs.length % 2 ^ 16) with
    | none => return (v, true)
    | some (q, p) =>
      let p ← p.copyIn c q xs.flatten
      require (k ≤ v.idx.length)
      return if fi then (⟨p, v.idx⟩, true) else (⟨p, v.idx.insertIdx k q⟩, false)
  | .push i x => do
    if fd && (← v.needs c i) then return (v, true)
    return (← v.pushBack c i x, false)
  | .bucketInsert i j x => do
    if fd && (← v.needs c i) then return (v, true)
    return (← v.bucketInsert c i j x, false)
  | .set i j x => do return (← v.set c i j x, false)
  | .resize n => do
    if fi && v.idx.length < n then return (v, true)
    return (← v.resize c n, false)
  | .clear => .ok (v.clear c, false)

/-- Run a program that catches the exceptions; also which calls threw. -/
def vrunF (c : Cfg) : Prog VOp (Bool × Bool) → PV → Res (PV × List Bool)
  | .done, v => .ok (v, [])
  | .step op f next, v => do
    let r ← op.execF c f.1 f.2 v
    let q ← vrunF c (next r.2) r.1
    return (q.1, r.2 :: q.2)

/-! ## Specification -/

/-- What the program has built: calls that threw are skipped. -/
def voutcome : Prog VOp (Bool × Bool) → List (List (List Byte)) → List Bool → List (List (List Byte))
  | .step op _ next, L, t :: ts => voutcome (next t) (if t then L else op.spec L) ts
  | _, L, _ => L

/-- The program meets the obligations of the caller whichever calls throw, and needs at most `b` elements of storage. -/
def VAllowedF (c : Cfg) : Prog VOp (Bool × Bool) → List (List (List Byte)) → Nat → Prop
  | .done, _, _ => True
  | .step op _ next, L, b => op.Pre c L ∧ op.cost c L ≤ b ∧
      VAllowedF c (next true) L (b - op.cost c L) ∧ VAllowedF c (next false) (op.spec L) (b - op.cost c L)

/-! ## Proofs -/

/-- A page that is neither used nor free does no harm. -/
theorem Inv.lose {p : Paged} {q : Page} {l : List Page} {fl : List (List Nat)} (h : Inv c p (q :: l) fl) : Inv c p l fl :=
  { h with
    pages := fun r hr => h.pages r (List.mem_cons_of_mem _ hr)
    pw := by
      have := h.pw
      simp only [List.map_cons, List.cons_append, List.pairwise_cons] at this
      exact this.2
    inr := fun b hb => h.inr b (by simp only [List.map_cons, List.cons_append]; exact List.mem_cons_of_mem _ hb) }

theorem needs_ok (ok : c.Ok) {v : PV} {L : List (List (List Byte))} (h : VRel c v L) {i : Nat} {xs : List (List Byte)}
    (hi : L[i]? = some xs) (hn : xs.length < 2 ^ c.M)
    (hb : v.paged.size c + 2 * max (2 ^ c.m) (xs.length + 1) ≤ c.sentinel) : ∃ b, v.needs c i = .ok b := by
  obtain ⟨fl, hI⟩ := h.inv
  obtain ⟨q, hq, hp, hB⟩ := h.page hi
  have hM : 2 ^ c.M ≤ 2 ^ 15 := Nat.pow_le_pow_right (by omega) ok.M15
  have hcl := newCap_le ok (n := xs.length + 1) (by omega)
  have hmod : (q.size + 1) % 2 ^ 16 = xs.length + 1 := by rw [hB.1]; exact Nat.mod_eq_of_lt (by omega)
  unfold PV.needs
  simp only [hp, ok_bind, hmod]
  split
  · exact ⟨_, rfl⟩
  · obtain ⟨q', p', _, e, _⟩ := create_ok ok hI (n := xs.length + 1) (by omega) (by omega)
    rw [e]
    exact ⟨_, rfl⟩

/-- Outcome of a call: it throws and the container is as before, or it does what it does without failures. -/
def StepOk (c : Cfg) (v : PV) (L : List (List (List Byte))) (op : VOp) (r : PV × Bool) : Prop :=
  VRel c r.1 (if r.2 then L else op.spec L) ∧ r.1.paged.size c ≤ v.paged.size c + op.cost c L

theorem execF_ok (ok : c.Ok) {v : PV} {L : List (List (List Byte))} (h : VRel c v L) {op : VOp} (hp : op.Pre c L)
    (hb : v.paged.size c + op.cost c L ≤ c.sentinel) (fd fi : Bool) :
    ∃ r, op.execF c fd fi v = .ok r ∧ StepOk c v L op r := by
  obtain ⟨v', e', h', hs'⟩ := vexec_ok ok h hp hb
  have skip : StepOk c v L op (v, true) := ⟨by simpa using h, by simp⟩
  have goes : StepOk c v L op (v', false) := ⟨by simpa using h', hs'⟩
  have hM : 2 ^ c.M ≤ 2 ^ 15 := Nat.pow_le_pow_right (by omega) ok.M15
  have fill : ∀ xs : List (List Byte), (∀ x ∈ xs, x.length = c.E) → xs.length ≤ 2 ^ c.M →
      op.cost c L = 2 * max (2 ^ c.m) xs.length → ∃ q p1 p2, v.paged.create c (xs.length % 2 ^ 16) = .ok (q, p1) ∧
        p1.copyIn c q xs.flatten = .ok p2 ∧ StepOk c v L op (⟨p2, v.idx⟩, true) := by
    intro xs hE hn hc
    rw [hc] at hb
    obtain ⟨fl, hI⟩ := h.inv
    obtain ⟨q, p1, p2, fl2, e1, e2, hI2, hB, hsz, hfr⟩ := createFill_ok ok h hE hn hb
    refine ⟨q, p1, p2, by rw [Nat.mod_eq_of_lt (by omega)]; exact e1, e2, ?_, by rw [hc]; exact hsz⟩
    refine ⟨⟨fl2, hI2.lose⟩, h.len, fun i r ys h1 h2 => ?_⟩
    exact (h.agree i r ys h1 h2).frame (hI.pages r (List.mem_of_getElem? h1)) (hfr r (List.mem_of_getElem? h1))
  cases op with
  | emplaceBack xs =>
    obtain ⟨q, p1, p2, e1, e2, hl⟩ := fill xs hp.1 hp.2 rfl
    simp only [VOp.exec, PV.emplaceBack, e1, ok_bind, e2, pure_ok] at e'
    cases e'
    simp only [VOp.execF, Paged.createF, e1, ok_bind]
    split
    · exact ⟨_, rfl, skip⟩
    · simp only [pure_ok, ok_bind, e2]
      cases fi with
      | true => exact ⟨_, rfl, hl⟩
      | false => exact ⟨_, rfl, goes⟩
  | emplaceBackEmpty =>
    obtain ⟨q, p1, p2, e1, e2, hl⟩ := fill [] (by simp) (by simp) (by simp [VOp.cost])
    have e1 : v.paged.create c 0 = .ok (q, p1) := e1
    have : p1 = p2 := by simpa [Paged.copyIn] using e2
    subst this
    simp only [VOp.exec, PV.emplaceBackEmpty, e1, ok_bind, e2, pure_ok] at e'
    cases e'
    simp only [VOp.execF, Paged.createF, e1, ok_bind]
    split
    · exact ⟨_, rfl, skip⟩
    · simp only [pure_ok, ok_bind, e2]
      cases fi with
      | true => exact ⟨_, rfl, hl⟩
      | false => exact ⟨_, rfl, goes⟩
  | insert k xs =>
    obtain ⟨q, p1, p2, e1, e2, hl⟩ := fill xs hp.2.1 hp.2.2 rfl
    have er : decide (k ≤ v.idx.length) = true := decide_eq_true (by rw [h.len]; exact hp.1)
    simp only [VOp.exec, PV.insert, e1, ok_bind, e2, er, require_true, pure_ok] at e'
    cases e'
    simp only [VOp.execF, Paged.createF, e1, ok_bind]
    split
    · exact ⟨_, rfl, skip⟩
    · simp only [pure_ok, ok_bind, e2, er, require_true]
      cases fi with
      | true => exact ⟨_, rfl, hl⟩
      | false => exact ⟨_, rfl, goes⟩
  | push i x =>
    obtain ⟨xs, hi, hn, hx⟩ := hp
    have hg : L.getD i [] = xs := by simp [List.getD, hi]
    simp only [VOp.cost, hg] at hb
    obtain ⟨b, eb⟩ := needs_ok ok h hi hn hb
    simp only [VOp.exec] at e'
    simp only [VOp.execF, eb, ok_bind]
    split
    · exact ⟨_, rfl, skip⟩
    · exact ⟨_, by simp only [e', ok_bind, pure_ok], goes⟩
  | bucketInsert i j x =>
    obtain ⟨xs, hi, _, hn, hx⟩ := hp
    have hg : L.getD i [] = xs := by simp [List.getD, hi]
    simp only [VOp.cost, hg] at hb
    obtain ⟨b, eb⟩ := needs_ok ok h hi hn hb
    simp only [VOp.exec] at e'
    simp only [VOp.execF, eb, ok_bind]
    split
    · exact ⟨_, rfl, skip⟩
    · exact ⟨_, by simp only [e', ok_bind, pure_ok], goes⟩
  | set i j x =>
    simp only [VOp.exec] at e'
    exact ⟨_, by simp only [VOp.execF, e', ok_bind, pure_ok], goes⟩
  | resize n =>
    simp only [VOp.exec] at e'
    simp only [VOp.execF]
    split
    · exact ⟨_, rfl, skip⟩
    · exact ⟨_, by simp only [e', ok_bind, pure_ok], goes⟩
  | clear =>
    simp only [VOp.exec] at e'
    cases e'
    exact ⟨_, rfl, goes⟩

theorem vrunF_ok (ok : c.Ok) (p : Prog VOp (Bool × Bool)) : ∀ {v : PV} {L : List (List (List Byte))} {b : Nat},
    VRel c v L → VAllowedF c p L b → v.paged.size c + b ≤ c.sentinel →
    ∃ v' ts, vrunF c p v = .ok (v', ts) ∧ VRel c v' (voutcome p L ts) := by
  induction p with
  | done => intro v L b h _ _; exact ⟨v, [], rfl, h⟩
  | step op f next ih =>
    intro v L b h ⟨hp, hc, ht, hf⟩ hb
    obtain ⟨⟨v1, t⟩, e1, h1, hs1⟩ := execF_ok ok h hp (by omega) f.1 f.2
    simp only at h1 hs1
    have hn : VAllowedF c (next t) (if t then L else op.spec L) (b - op.cost c L) := by
      cases t with
      | true => exact ht
      | false => exact hf
    obtain ⟨v2, ts, e2, h2⟩ := ih t h1 hn (by omega)
    exact ⟨v2, t :: ts, by simp only [vrunF, e1, ok_bind, e2, pure_ok], by simpa only [voutcome] using h2⟩

/-- **C135** A program that works with a `paged_vecvec` while memory runs out at any points, catches `std::bad_alloc` and
goes on: no undefined behaviour, and at the end all observers (size, buckets, elements, `at`, iteration of a non-empty
container) answer for exactly the calls that did not throw.  Obligations of the caller as in C25: buckets hold at most
`MaxPageSize` elements, arguments are not elements of the container.  Every call, whether it throws or not, uses up at
most the storage it uses without failures. -/
theorem C135_history {c : Cfg} (ok : c.Ok) (p : Prog VOp (Bool × Bool)) (ha : VAllowedF c p [] c.sentinel) :
    ∃ v ts, vrunF c p (PV.empty c) = .ok (v, ts) ∧ VGood c v (voutcome p [] ts) := by
  obtain ⟨v, ts, e, h⟩ := vrunF_ok ok p (vrel_empty c) ha (by simp [Paged.size, Paged.empty, PV.empty])
  exact ⟨v, ts, e, h.good⟩

/-- Growing the data fails for a bucket that is then added again; growing the index fails for an empty bucket. -/
def failProg : Prog VOp (Bool × Bool) :=
  .step (.emplaceBack [[1#8, 0#8, 0#8, 0#8]]) (true, false) fun t =>
    if t then .step (.emplaceBack [[1#8, 0#8, 0#8, 0#8]]) (false, false) fun _ => .step .emplaceBackEmpty (false, true) fun _ => .done
    else .done

example : VAllowedF cfg4 failProg [] cfg4.sentinel ∧
    (vrunF cfg4 failProg (PV.empty cfg4)).map (fun r => (r.1.idx.length, r.2)) = .ok (1, [true, false, true]) ∧
    voutcome failProg [] [true, false, true] = [[[1#8, 0#8, 0#8, 0#8]]] := by
  refine ⟨⟨⟨by decide, by decide⟩, by decide, ⟨⟨by decide, by decide⟩, by decide, ?_, ?_⟩, trivial⟩, by decide +kernel, rfl⟩
  · exact ⟨trivial, by decide, trivial, trivial⟩
  · exact ⟨trivial, by decide, trivial, trivial⟩

/-- `n` times `emplace_back(xs)` while the index cannot grow. -/
def failing (xs : List (List Byte)) : Nat → Prog VOp (Bool × Bool)
  | 0 => .done
  | n + 1 => .step (.emplaceBack xs) (false, true) fun _ => failing xs n

/-- **C135** What the failed calls cost: if the index cannot grow and there is no free page of the right capacity, each of
`n` failing calls of `emplace_back(xs)` takes one more page from `data_` that is neither part of a bucket nor free, so it is
not used again before `clear()`. -/
theorem C135_lost_pages (ok : c.Ok) {v : PV} {L : List (List (List Byte))} (h : VRel c v L) {xs : List (List Byte)}
    (hE : ∀ x ∈ xs, x.length = c.E) (hn : xs.length ≤ 2 ^ c.M)
    (hfree : v.paged.free[freeIdx c (newCap c xs.length)]? = some c.sentinel) (n : Nat)
    (hb : v.paged.size c + n * (2 * max (2 ^ c.m) xs.length) ≤ c.sentinel) :
    ∃ v', vrunF c (failing xs n) v = .ok (v', List.replicate n true) ∧ v'.idx = v.idx ∧ VRel c v' L ∧
      v'.paged.free = v.paged.free ∧ v'.paged.data.length = v.paged.data.length + n * (newCap c xs.length * c.E) := by
  induction n generalizing v with
  | zero => exact ⟨v, rfl, rfl, h, rfl, by simp⟩
  | succ n ih =>
    have hM : 2 ^ c.M ≤ 2 ^ 15 := Nat.pow_le_pow_right (by omega) ok.M15
    have hmod : xs.length % 2 ^ 16 = xs.length := Nat.mod_eq_of_lt (by omega)
    rw [Nat.add_mul, Nat.one_mul] at hb
    obtain ⟨fl, hI⟩ := h.inv
    obtain ⟨q, p1, p2, fl2, e1, e2, hI2, hB, hsz, hfr⟩ := createFill_ok ok h hE hn (by omega)
    have hlt : freeIdx c (newCap c xs.length) < v.paged.free.length := (List.getElem?_eq_some_iff.1 hfree).1
    have hp1 : p1 = { v.paged with data := v.paged.data ++ List.replicate (newCap c xs.length * c.E) 0#8 } := by
      unfold Paged.create Paged.createAt at e1
      rw [decide_eq_true hlt, verify_true, ok_bind, hfree] at e1
      simp only [if_true] at e1
      injection e1 with e1
      injection e1 with _ e1
      exact e1.symm
    have hp2 : p2.free = v.paged.free ∧ p2.data.length = v.paged.data.length + newCap c xs.length * c.E := by
      unfold Paged.copyIn at e2
      split at e2
      · cases e2; rw [hp1]; simp
      · unfold store at e2
        cases hd : decide (q.start * c.E + xs.flatten.length ≤ p1.data.length) with
        | false => rw [hd] at e2; cases e2
        | true =>
          rw [hd, require_true] at e2
          simp only [ok_bind, pure_ok] at e2
          cases e2
          refine ⟨by rw [hp1], ?_⟩
          show (MM.blit p1.data _ _).length = _
          rw [MM.blit_length _ _ _ (of_decide_eq_true hd), hp1]
          simp
    have h1 : VRel c ⟨p2, v.idx⟩ L := ⟨⟨fl2, hI2.lose⟩, h.len, fun i r ys h1 h2 =>
      (h.agree i r ys h1 h2).frame (hI.pages r (List.mem_of_getElem? h1)) (hfr r (List.mem_of_getElem? h1))⟩
    have hsz' : p2.size c ≤ v.paged.size c + 2 * max (2 ^ c.m) xs.length := hsz
    obtain ⟨v', e, hi, h', hf', hd'⟩ := ih (v := ⟨p2, v.idx⟩) h1 (by simp only [hp2.1]; exact hfree) (by simp only; omega)
    refine ⟨v', ?_, hi, h', by rw [hf']; exact hp2.1, ?_⟩
    · have ee : VOp.execF c false true v (.emplaceBack xs) = .ok (⟨p2, v.idx⟩, true) := by
        simp only [VOp.execF, Paged.createF, hmod, e1, ok_bind, Bool.false_and, Bool.false_eq_true, if_false, pure_ok, e2, if_true]
      simp only [failing, vrunF, ee, ok_bind, e, pure_ok]
      rfl
    · rw [hd']
      simp only [hp2.2]
      rw [Nat.add_mul, Nat.one_mul]
      omega

example : ((PV.empty cfg4).paged.free[freeIdx cfg4 (newCap cfg4 1)]? = some cfg4.sentinel) ∧
    (vrunF cfg4 (failing [[1#8, 0#8, 0#8, 0#8]] 3) (PV.empty cfg4)).map (fun r => (r.1.idx, r.1.paged.data.length)) =
      .ok ([], 24) := by decide +kernel

end Cista.Paged

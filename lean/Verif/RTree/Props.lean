import Verif.RTree.Top

/-!
# R-tree: claims
-/
set_option linter.unusedSimpArgs false
set_option linter.unusedSectionVars false

namespace Cista.RTree
open Coord

variable {N T : Type} [Coord N] {D : Nat}

/-! ## Specification -/

/-- Two rectangles have a point in common (closed rectangles). -/
def Meets (a b : Rect N D) : Prop := ∀ i, lt (a.hi i) (b.lo i) = false ∧ lt (b.hi i) (a.lo i) = false

/-- `a` covers `b`. -/
def Covers (a b : Rect N D) : Prop := ∀ i, lt (b.lo i) (a.lo i) = false ∧ lt (a.hi i) (b.hi i) = false

/-- Same corners. -/
def Same (a b : Rect N D) : Prop := ∀ i, (lt (a.lo i) (b.lo i) = false ∧ lt (b.lo i) (a.lo i) = false) ∧
  lt (a.hi i) (b.hi i) = false ∧ lt (b.hi i) (a.hi i) = false

/-- `out` is what a callback sees that is offered `hits` in order and may stop at any time. -/
def Reported (fn : Callback N T D) (hits out : List (Ent N T D)) : Prop :=
  out <+: hits ∧ (∀ p e q, out = p ++ e :: q → q ≠ [] → fn p e = true) ∧ (out ≠ hits → ∃ p e, out = p ++ [e] ∧ fn p e = false)

/-- The public operations. -/
inductive Op (N T : Type) (D : Nat) where
  | insert (r : Rect N D) (d : T)
  | delete (r : Rect N D) (d : T)
  | deleteFn (r : Rect N D) (fn : Rect N D → T → Bool)
  | search (r : Rect N D) (fn : Callback N T D)
  | size

inductive Out (N T : Type) (D : Nat) where
  | none
  | found (es : List (Ent N T D))
  | count (n : Nat)

/-- What an operation may do to a multiset of entries. -/
inductive Step : List (Ent N T D) → Op N T D → Out N T D → List (Ent N T D) → Prop
  | insert (m r d) : Step m (.insert r d) .none ((r, d) :: m)
  | deleteHit (m m' : List (Ent N T D)) (r r' d) (hp : m.Perm ((r', d) :: m')) (hs : Same r r') : Step m (.delete r d) .none m'
  | deleteMiss (m : List (Ent N T D)) (r : Rect N D) (d : T) (h : ∀ e ∈ m, Same r e.1 → e.2 ≠ d) : Step m (.delete r d) .none m
  | deleteFnHit (m m' : List (Ent N T D)) (r : Rect N D) (fn) (e : Ent N T D) (hp : m.Perm (e :: m')) (he : fn e.1 e.2 = true) :
      Step m (.deleteFn r fn) .none m'
  | deleteFnMiss (m : List (Ent N T D)) (r : Rect N D) (fn) (h : ∀ e ∈ m, Covers e.1 r → fn e.1 e.2 = false) : Step m (.deleteFn r fn) .none m
  | search (m : List (Ent N T D)) (r : Rect N D) (fn) (hits rest out : List (Ent N T D)) (hp : m.Perm (hits ++ rest))
      (hh : ∀ e ∈ hits, Meets e.1 r) (hr : ∀ e ∈ rest, ¬Meets e.1 r) (ho : Reported fn hits out) : Step m (.search r fn) (.found out) m
  | size (m : List (Ent N T D)) : Step m .size (.count m.length) m

inductive Steps : List (Ent N T D) → List (Op N T D) → List (Out N T D) → List (Ent N T D) → Prop
  | nil (m) : Steps m [] [] m
  | cons {m op o m1 ops os m2} (h1 : Step m op o m1) (h2 : Steps m1 ops os m2) : Steps m (op :: ops) (o :: os) m2

/-! ## Running the model -/

def Op.exec [NeZero D] [DecidableEq T] (M : Nat) (st : RT N T D) : Op N T D → Res (RT N T D × Out N T D)
  | .insert r d => do
    let st' ← RTree.insert M st r d
    .ok (st', .none)
  | .delete r d => do
    let st' ← RTree.delete st r d
    .ok (st', .none)
  | .deleteFn r fn => do
    let st' ← RTree.deleteFn st r fn
    .ok (st', .none)
  | .search r fn => do
    let es ← RTree.search st r fn
    .ok (st, .found es)
  | .size => .ok (st, .count st.count)

def run [NeZero D] [DecidableEq T] (M : Nat) : RT N T D → List (Op N T D) → Res (RT N T D × List (Out N T D))
  | st, [] => .ok (st, [])
  | st, op :: ops => do
    let (st1, o) ← op.exec M st
    let (st2, os) ← run M st1 ops
    .ok (st2, o :: os)

/-- Number of insertions in a history. -/
def inserts : List (Op N T D) → Nat
  | [] => 0
  | .insert _ _ :: ops => inserts ops + 1
  | .delete _ _ :: ops => inserts ops
  | .deleteFn _ _ :: ops => inserts ops
  | .search _ _ :: ops => inserts ops
  | .size :: ops => inserts ops

/-- Up to how many insertions the sixteen path hints certainly suffice. -/
def limit (M : Nat) : Nat := ((List.range 17).map fun j => minItems M ^ (j + 1)).sum

theorem limit_eq (M : Nat) : limit M = geo (minItems M) 17 := by
  simp only [limit, geo, List.range_succ, List.map_append, List.map_cons, List.sum_append, List.range_zero, List.map_nil, List.nil_append,
    List.sum_cons, List.sum_nil, Nat.add_zero, Nat.zero_add]

/-- For the default capacity of 64 the limit exceeds 2^47. -/
example : 2 ^ 47 < limit 64 := by decide

/-! ## Auxiliary -/

theorem meets_iff {a b : Rect N D} : a.intersects b = true ↔ Meets a b := by
  simp [Rect.intersects, Meets, List.all_eq_true]

theorem covers_iff {a b : Rect N D} : a.contains b = true ↔ Covers a b := by
  rw [contains_iff]; rfl

theorem same_iff {a b : Rect N D} : (coordEq a.lo b.lo = true ∧ coordEq a.hi b.hi = true) ↔ Same a b := by
  simp only [coordEq, List.all_eq_true, Same, feq, List.mem_finRange, true_implies, Bool.not_eq_true', Bool.or_eq_false_iff]
  exact ⟨fun h i => ⟨h.1 i, h.2 i⟩, fun h => ⟨fun i => (h i).1, fun i => (h i).2⟩⟩

theorem reported_fold (fn : Callback N T D) : ∀ (hits acc : List (Ent N T D)),
    ∃ t, (stopFold fn acc hits).1 = acc ++ t ∧ t <+: hits ∧ (∀ p e q, t = p ++ e :: q → q ≠ [] → fn (acc ++ p) e = true) ∧
      (t ≠ hits → ∃ p e, t = p ++ [e] ∧ fn (acc ++ p) e = false)
  | [], acc => ⟨[], by simp [stopFold], List.prefix_rfl, fun p e q h => by simp at h, fun h => absurd rfl h⟩
  | x :: hits, acc => by
    unfold stopFold
    by_cases hf : fn acc x = true
    · rw [if_pos hf]
      obtain ⟨t, h1, h2, h3, h4⟩ := reported_fold fn hits (acc ++ [x])
      refine ⟨x :: t, by rw [h1]; simp, by rw [List.cons_prefix_cons]; exact ⟨rfl, h2⟩, ?_, ?_⟩
      · intro p e q hp hq
        cases p with
        | nil =>
          rw [List.nil_append] at hp
          injection hp with hp _
          subst hp
          simpa using hf
        | cons y p =>
          rw [List.cons_append] at hp
          injection hp with hp hp'
          subst hp
          have := h3 p e q hp' hq
          rwa [List.append_assoc] at this
      · intro hne
        obtain ⟨p, e, q1, q2⟩ := h4 (fun h => hne (by rw [h]))
        refine ⟨x :: p, e, by rw [q1]; rfl, ?_⟩
        rwa [List.append_assoc] at q2
    · rw [if_neg hf]
      refine ⟨[x], rfl, by rw [List.cons_prefix_cons]; exact ⟨rfl, List.nil_prefix⟩, ?_, ?_⟩
      · intro p e q hp hq
        cases p with
        | nil =>
          rw [List.nil_append] at hp
          injection hp with _ hp
          exact absurd hp.symm hq
        | cons y p =>
          rw [List.cons_append] at hp
          injection hp with _ hp
          simp at hp
      · exact fun _ => ⟨[], x, rfl, by simpa using hf⟩

/-- The origin as a degenerate rectangle: the value of `rect{}`. -/
def origin : Rect N D := ⟨fun _ => Coord.zero, fun _ => Coord.zero⟩

/-- Operations that keep rectangles as small as possible: the origin is not inserted, and a predicate for deletion only selects entries
that have the given rectangle. -/
def Op.Plain : Op N T D → Prop
  | .insert r _ => ¬Covers origin r
  | .deleteFn r fn => ∀ r' d, fn r' d = true → Same r r'
  | .delete _ _ => True
  | .search _ _ => True
  | .size => True

section
variable [Mode]

theorem exec_ok [NeZero D] [DecidableEq T] {M : Nat} (hM : 3 ≤ M) {B : Nat} (hB : B < geo (minItems M) 17) {lost : List Nat} {st : RT N T D}
    {m : List (Ent N T D)} (h : RepL M B lost st m) (op : Op N T D) (hp : Mode.tight → op.Plain) (h0 : Mode.tight → Off0 m) :
    ∃ st' o m', op.exec M st = .ok (st', o) ∧ Step m op o m' ∧ RepL M (B + inserts [op]) lost st' m' := by
  cases op with
  | insert r d =>
    obtain ⟨st', h1, h2⟩ := insert_ok hM hB h r d
    exact ⟨st', .none, _, by simp only [Op.exec, h1, ok_bind], .insert m r d, h2⟩
  | delete r d =>
    obtain ⟨st', h1, h2⟩ := deleteFn_ok (by omega) hB h r (fun r' d' => coordEq r.lo r'.lo && coordEq r.hi r'.hi && decide (d = d'))
      (fun _ r' d' hf => by simp only [Bool.and_eq_true] at hf; simp only [Rect.equals, Bool.and_eq_true]; exact hf.1) h0
    have he : (Op.delete r d).exec M st = .ok (st', .none) := by simp only [Op.exec, RTree.delete, h1, ok_bind]
    rcases h2 with ⟨h2, h3⟩ | ⟨e, m', h2, h3, h4⟩
    · refine ⟨st', .none, m, he, .deleteMiss m r d fun e hem hs hd => ?_, h2⟩
      have hs' := same_iff.2 hs
      have := h3 e hem (coordEq_contains hs'.1 hs'.2)
      simp [hs'.1, hs'.2, hd] at this
    · simp only [Bool.and_eq_true, decide_eq_true_eq] at h3
      refine ⟨st', .none, m', he, .deleteHit m m' r e.1 d ?_ (same_iff.1 h3.1), h4⟩
      rw [h3.2]; exact h2
  | deleteFn r fn =>
    obtain ⟨st', h1, h2⟩ := deleteFn_ok (by omega) hB h r fn
      (fun ht r' d' hf => by have := same_iff.2 (hp ht r' d' hf); simp only [Rect.equals, Bool.and_eq_true]; exact this) h0
    have he : (Op.deleteFn r fn).exec M st = .ok (st', .none) := by simp only [Op.exec, h1, ok_bind]
    rcases h2 with ⟨h2, h3⟩ | ⟨e, m', h2, h3, h4⟩
    · exact ⟨st', .none, m, he, .deleteFnMiss m r fn fun e hem hc => h3 e hem (covers_iff.2 hc), h2⟩
    · exact ⟨st', .none, m', he, .deleteFnHit m m' r fn e h2 h3, h4⟩
  | search r fn =>
    obtain ⟨L, h1, h2⟩ := search_ok h
    obtain ⟨t, q1, q2, q3, q4⟩ := reported_fold fn (L.filter fun e => e.1.intersects r) []
    rw [List.nil_append] at q1
    refine ⟨st, .found t, m, by simp only [Op.exec, h2, ok_bind]; rw [q1],
      .search m r fn (L.filter fun e => e.1.intersects r) (L.filter fun e => !e.1.intersects r) t ?_ ?_ ?_ ⟨q2, ?_, ?_⟩, h⟩
    · exact h1.symm.trans (List.filter_append_perm _ L).symm
    · exact fun e he => meets_iff.1 (List.mem_filter.1 he).2
    · intro e he hm
      have := (List.mem_filter.1 he).2
      rw [meets_iff.2 hm] at this
      cases this
    · exact fun p e q hp hq => by simpa using q3 p e q hp hq
    · exact fun hne => by simpa using q4 hne
  | size =>
    have hc : st.count = m.length := by
      rcases h with ⟨_, h2, _, h4, _⟩ | ⟨k, root, nd, fl, _, _, h3, _⟩
      · rw [h2, h4]; rfl
      · exact h3
    exact ⟨st, .count st.count, m, rfl, by rw [hc]; exact .size m, h⟩

theorem inserts_cons (op : Op N T D) (ops : List (Op N T D)) : inserts (op :: ops) = inserts [op] + inserts ops := by
  cases op <;> simp [inserts, Nat.add_comm]

theorem Step.off0 {m m' : List (Ent N T D)} {op : Op N T D} {o : Out N T D} (h : Step m op o m') (hp : op.Plain) (h0 : Off0 m) : Off0 m' := by
  cases h with
  | insert r d =>
    intro e he
    rcases List.mem_cons.1 he with rfl | he
    · cases hc : (Rect.zero : Rect N D).contains r with
      | false => rfl
      | true => exact absurd (covers_iff.1 hc) hp
    · exact h0 e he
  | deleteHit _ _ _ _ hp' _ => exact fun e he => h0 e (hp'.mem_iff.2 (by simp [he]))
  | deleteMiss => exact h0
  | deleteFnHit _ _ _ _ hp' _ => exact fun e he => h0 e (hp'.mem_iff.2 (by simp [he]))
  | deleteFnMiss => exact h0
  | search => exact h0
  | size => exact h0

theorem run_ok [NeZero D] [DecidableEq T] {M : Nat} (hM : 3 ≤ M) : ∀ (ops : List (Op N T D)) {B : Nat} {lost : List Nat} {st : RT N T D}
    {m : List (Ent N T D)}, B + inserts ops < geo (minItems M) 17 → RepL M B lost st m → (Mode.tight → ∀ op ∈ ops, op.Plain) → (Mode.tight → Off0 m) →
    ∃ st' os m', run M st ops = .ok (st', os) ∧ Steps m ops os m' ∧ RepL M (B + inserts ops) lost st' m'
  | [], B, lost, st, m, _, h, _, _ => ⟨st, [], m, rfl, .nil m, h⟩
  | op :: ops, B, lost, st, m, hB, h, hp, h0 => by
    rw [inserts_cons] at hB
    obtain ⟨st1, o, m1, h1, h2, h3⟩ := exec_ok hM (by omega) h op (fun ht => hp ht op (by simp)) h0
    obtain ⟨st2, os, m2, h4, h5, h6⟩ := run_ok hM ops (by omega) h3 (fun ht op' ho => hp ht op' (by simp [ho]))
      (fun ht => h2.off0 (hp ht op (by simp)) (h0 ht))
    refine ⟨st2, o :: os, m2, ?_, .cons h2 h5, by rw [inserts_cons, ← Nat.add_assoc]; exact h6⟩
    unfold run
    rw [h1, ok_bind]
    simp only
    rw [h4, ok_bind]

end

/-! ## Claims -/

section
local instance : Mode := ⟨False⟩

/-- **C35** For every dimension, every node capacity of at least three, every strict weak order of the coordinates, and every history with fewer than
`limit M` insertions (more than 2^47 for the default capacity): the history runs without undefined behaviour and without hanging, and its outputs are
those of a multiset of entries; in particular every search reports exactly the entries meeting the query, each once, until the callback stops it. -/
theorem C35_history_partial [NeZero D] [DecidableEq T] {M : Nat} (hM : 3 ≤ M) (ops : List (Op N T D)) (hn : inserts ops < limit M) :
    ∃ st os m, run M (RT.init : RT N T D) ops = .ok (st, os) ∧ Steps [] ops os m := by
  rw [limit_eq] at hn
  obtain ⟨st, os, m, h1, h2, _⟩ := run_ok hM ops (B := 0) (by omega) (Rep.init M) (nomatch ·) (nomatch ·)
  exact ⟨st, os, m, h1, h2⟩

/-- **C35** A search whose callback never stops reports exactly the entries meeting the query. -/
theorem C35_search_complete_partial [NeZero D] [DecidableEq T] {M : Nat} (hM : 3 ≤ M) (ops : List (Op N T D)) (hn : inserts ops < limit M)
    (r : Rect N D) : ∃ st os m found rest, run M (RT.init : RT N T D) ops = .ok (st, os) ∧ Steps [] ops os m ∧
      search st r (fun _ _ => true) = .ok found ∧ m.Perm (found ++ rest) ∧ (∀ e ∈ found, Meets e.1 r) ∧ ∀ e ∈ rest, ¬Meets e.1 r := by
  rw [limit_eq] at hn
  obtain ⟨st, os, m, h1, h2, h3⟩ := run_ok hM ops (B := 0) (by omega) (Rep.init M) (nomatch ·) (nomatch ·)
  obtain ⟨st', o, m', q1, q2, _⟩ := exec_ok hM (by omega) h3 (.search r fun _ _ => true) (nomatch ·) (nomatch ·)
  simp only [Op.exec] at q1
  cases hs : search st r (fun _ _ => true) with
  | error e => rw [hs] at q1; cases q1
  | ok es =>
    rw [hs, ok_bind] at q1
    injection q1 with q1
    injection q1 with _ q1
    subst q1
    cases q2 with
    | search _ _ hits rest _ hp hh hr ho =>
      have : es = hits := by
        refine Classical.byContradiction fun hne => ?_
        obtain ⟨p, e, _, h⟩ := ho.2.2 hne
        cases h
      subst this
      exact ⟨st, os, m, es, rest, h1, h2, hs, hp, hh, hr⟩

end

/-- Nodes reachable from a node. -/
inductive Reach (ns : List (Node N T D)) (i : Nat) : Nat → Prop
  | self : Reach ns i i
  | child {j : Nat} {n : Node N T D} {s : Slot N T D} {h c : Nat} (hr : Reach ns i j) (hn : ns[j]? = some n) (hk : n.kind = .branch)
      (hh : h < n.count) (hs : n.slots[h]? = some s) (hc : s.2 = .child c) : Reach ns i c

/-- Node `i` holds an entry, as a leaf. -/
def Holds (ns : List (Node N T D)) (i : Nat) (e : Ent N T D) : Prop :=
  ∃ n h, ns[i]? = some n ∧ n.kind = .leaf ∧ h < n.count ∧ n.slots[h]? = some (e.1, .item e.2)

/-- Nodes on the free list. -/
inductive OnFree (st : RT N T D) : Nat → Prop
  | head {i : Nat} (h : st.free = some i) : OnFree st i
  | next {i : Nat} {n : Node N T D} (h : OnFree st i) (hn : st.nodes[i]? = some n) (hk : n.kind ≠ .endFree) : OnFree st n.count

section
variable [Mode]

theorem reach_level {M : Nat} {ns : List (Node N T D)} : ∀ {k i j : Nat} {n : Node N T D}, NOk M ns k i n → Reach ns i j →
    ∃ k' n', NOk M ns k' j n' ∧ j ∈ nIds ns k i ∧ (∀ x ∈ nIds ns k' j, x ∈ nIds ns k i) ∧ ∀ e ∈ nEnts ns k' j, e ∈ nEnts ns k i := by
  intro k i j n h hr
  induction hr with
  | self => exact ⟨k, n, h, by simp [nIds], fun x hx => hx, fun e he => he⟩
  | @child j n1 s hd c hr hn hk hh hs hc ih =>
    obtain ⟨k', n', q1, q2, q3, q4⟩ := ih
    have : n1 = n' := by have := q1.get; rw [hn] at this; exact Option.some.inj this
    subst this
    cases k' with
    | zero => have := q1.kind; rw [hk] at this; simp [kindOf] at this
    | succ k' =>
      obtain ⟨s', c', cn, R, hs', hsc, hcn, _, _, hperm, _, _⟩ := q1.pick hh
      rw [hs] at hs'; injection hs' with hs'; subst hs'
      rw [hc] at hsc; injection hsc with hsc; subst hsc
      obtain ⟨pi, pe, _⟩ := via_perm (M := M) (k := k' + 1) q1.get hperm
      rw [List.flatMap_cons, sIds_succ, cd_child hc] at pi
      rw [List.flatMap_cons, sEnts_succ, cd_child hc] at pe
      have hi : ∀ x ∈ nIds ns k' c, x ∈ nIds ns k i := fun x hx => q3 x (pi.mem_iff.2 (by simp [hx]))
      exact ⟨k', cn, hcn, hi c (by simp [nIds]), hi, fun e he => q4 e (pe.mem_iff.2 (by simp [he]))⟩

theorem reach_trans {ns : List (Node N T D)} {a b c : Nat} (h1 : Reach ns a b) (h2 : Reach ns b c) : Reach ns a c := by
  induction h2 with
  | self => exact h1
  | child _ hn hk hh hs hc ih => exact .child ih hn hk hh hs hc

theorem ids_reach {M : Nat} {ns : List (Node N T D)} : ∀ (k i : Nat) (n : Node N T D), NOk M ns k i n → ∀ j ∈ nIds ns k i, Reach ns i j
  | 0, i, n, h, j, hj => by
    rw [nIds_zero, List.mem_singleton] at hj
    subst hj; exact .self
  | k + 1, i, n, h, j, hj => by
    unfold nIds at hj
    rw [List.mem_cons] at hj
    rcases hj with rfl | hj
    · exact .self
    · rw [liveAt_of h.get, List.mem_flatMap] at hj
      obtain ⟨s, hs, hj⟩ := hj
      obtain ⟨p, hp⟩ := List.mem_iff_getElem?.1 hs
      have hpl : p < n.count := by
        have := (List.getElem?_eq_some_iff.1 hp).1
        rwa [h.live_length] at this
      rw [live_get hpl] at hp
      obtain ⟨c, cn, q1, q2, _, _⟩ := sOk_succ.1 (h.slots s hs)
      rw [sIds_succ, cd_child q1] at hj
      exact reach_trans (.child .self h.get h.kind hpl hp q1) (ids_reach k c cn q2 j hj)

theorem holds_ents {M : Nat} {ns : List (Node N T D)} {k i j : Nat} {n : Node N T D} {e : Ent N T D} (h : NOk M ns k i n)
    (hr : Reach ns i j) (hh : Holds ns j e) : e ∈ nEnts ns k i := by
  obtain ⟨k', n', q1, _, _, q4⟩ := reach_level h hr
  refine q4 e ?_
  obtain ⟨n1, p, h1, h2, h3, h4⟩ := hh
  have : n1 = n' := by have := q1.get; rw [h1] at this; exact Option.some.inj this
  subst this
  cases k' with
  | succ k' => have := q1.kind; rw [h2] at this; simp [kindOf] at this
  | zero =>
    unfold nEnts
    rw [liveAt_of h1, List.mem_flatMap]
    refine ⟨_, List.mem_of_getElem? (i := p) (by rw [live_get h3]; exact h4), ?_⟩
    simp [sEnts]

theorem free_mem {ns : List (Node N T D)} : ∀ (fl : List Nat) (o : Option Nat), Free ns o fl →
    (∀ i, o = some i → i ∈ fl) ∧ ∀ i ∈ fl, ∀ n, ns[i]? = some n → n.kind ≠ .endFree → n.count ∈ fl
  | [], none, _ => ⟨(fun i h => by cases h), fun i h => by simp at h⟩
  | [], some i, h => h.elim
  | j :: fl, none, h => by simp [Free] at h
  | j :: fl, some i, h => by
    obtain ⟨rfl, n, h1, h2⟩ := h
    obtain ⟨q1, q2⟩ := free_mem fl _ h2
    refine ⟨fun x hx => by injection hx with hx; subst hx; simp, fun x hx n' hn' hk => ?_⟩
    rcases List.mem_cons.1 hx with rfl | hx
    · rw [h1] at hn'; injection hn' with hn'; subst hn'
      rw [if_neg hk] at q1
      exact List.mem_cons_of_mem _ (q1 _ rfl)
    · exact List.mem_cons_of_mem _ (q2 x hx n' hn' hk)

theorem free_onFree {st : RT N T D} : ∀ (fl : List Nat) (o : Option Nat), Free st.nodes o fl → (∀ i, o = some i → OnFree st i) →
    ∀ i ∈ fl, OnFree st i
  | [], o, _, _, i, hi => by simp at hi
  | j :: fl, none, h, _, _, _ => by simp [Free] at h
  | j :: fl, some i, h, ho, x, hx => by
    obtain ⟨rfl, n, h1, h2⟩ := h
    rcases List.mem_cons.1 hx with rfl | hx
    · exact ho _ rfl
    · refine free_onFree fl _ h2 (fun y hy => ?_) x hx
      split at hy
      · cases hy
      · rename_i hk
        injection hy with hy; subst hy
        exact .next (ho _ rfl) h1 hk

theorem ents_holds {M : Nat} {ns : List (Node N T D)} : ∀ (k i : Nat) (n : Node N T D), NOk M ns k i n → ∀ e ∈ nEnts ns k i,
    ∃ j, Reach ns i j ∧ Holds ns j e
  | k, i, n, h, e, he => by
    unfold nEnts at he
    rw [liveAt_of h.get, List.mem_flatMap] at he
    obtain ⟨s, hs, he⟩ := he
    obtain ⟨p, hp⟩ := List.mem_iff_getElem?.1 hs
    have hpl : p < n.count := by
      have := (List.getElem?_eq_some_iff.1 hp).1
      rwa [h.live_length] at this
    rw [live_get hpl] at hp
    cases k with
    | zero =>
      obtain ⟨d, hd⟩ := h.slots s hs
      simp only [sEnts, hd, List.mem_singleton] at he
      subst he
      exact ⟨i, .self, n, p, h.get, h.kind, hpl, by rw [hp, ← hd]⟩
    | succ k =>
      obtain ⟨c, cn, q1, q2, _, _⟩ := sOk_succ.1 (h.slots s hs)
      rw [sEnts_succ, cd_child q1] at he
      obtain ⟨j, hj1, hj2⟩ := ents_holds k c cn q2 e he
      exact ⟨j, reach_trans (.child .self h.get h.kind hpl hp q1) hj1, hj2⟩

end

section
local instance : Mode := ⟨False⟩

/-- **C36** After any history with fewer than `limit M` insertions: the count is the number of stored entries; the entries held by the reachable leaves
are the stored ones; the rectangle kept for a child covers every entry held below it, and the rectangle of the tree covers every entry; no node is both
reachable and on the free list; and every node is one or the other, so none is lost. -/
theorem C36_structure_partial [NeZero D] [DecidableEq T] {M : Nat} (hM : 3 ≤ M) (ops : List (Op N T D)) (hn : inserts ops < limit M) :
    ∃ st os m, run M (RT.init : RT N T D) ops = .ok (st, os) ∧ Steps [] ops os m ∧ st.count = m.length ∧ (st.root = none ↔ m = []) ∧
      (∀ i, i < st.nodes.length ↔ (∃ root, st.root = some root ∧ Reach st.nodes root i) ∨ OnFree st i) ∧
      ∀ root, st.root = some root →
        (∀ i, Reach st.nodes root i → ¬OnFree st i) ∧
        (∀ i e, Reach st.nodes root i → Holds st.nodes i e → e ∈ m ∧ Covers st.rect e.1) ∧
        ∀ i n h s c j e, Reach st.nodes root i → st.nodes[i]? = some n → n.kind = .branch → h < n.count → n.slots[h]? = some s →
          s.2 = .child c → Reach st.nodes c j → Holds st.nodes j e → Covers s.1 e.1 := by
  rw [limit_eq] at hn
  obtain ⟨st, os, m, h1, h2, h3⟩ := run_ok hM ops (B := 0) (by omega) (Rep.init M) (nomatch ·) (nomatch ·)
  refine ⟨st, os, m, h1, h2, ?_⟩
  have hfree : ∀ {fl : List Nat} {I : List Nat}, Good M st I fl → ∀ i, OnFree st i → i ∈ fl := by
    intro fl I g i hi
    have hm := free_mem fl _ g.world.free
    induction hi with
    | head h => exact hm.1 _ h
    | next _ hn hk ih => exact hm.2 _ ih _ hn hk
  have hfree' : ∀ {fl : List Nat} {I : List Nat}, Good M st I fl → ∀ i ∈ fl, OnFree st i := fun g =>
    free_onFree _ _ g.world.free fun i hi => .head hi
  rcases h3 with ⟨r1, r2, r3, r4, fl, r5, r6⟩ | ⟨k, root, nd, fl, r1, r2, r3, r4, r5, r6⟩
  · subst r4
    refine ⟨r2, by simp [r1], fun i => ?_, fun root hr => by rw [r1] at hr; cases hr⟩
    have hf : i ∈ fl ↔ i < st.nodes.length := by
      have := r6.mem_iff (a := i)
      rwa [List.nil_append, List.mem_range] at this
    rw [← hf]
    exact ⟨fun h => Or.inr (hfree' r5 i h), fun h => h.elim (fun ⟨root, hr, _⟩ => by rw [r1] at hr; cases hr) (hfree r5 i)⟩
  · have hmne : m ≠ [] := by
      rintro rfl
      have := (live_le_ents r1.ok).1
      rw [r4.length_eq, r1.ok.live_length] at this
      simp at this
      omega
    refine ⟨r3, by rw [r1.root]; simp [hmne], fun i => ?_, fun root' hr => ?_⟩
    · have hf : i ∈ nIds st.nodes k root ∨ i ∈ fl ↔ i < st.nodes.length := by
        have := r1.full.mem_iff (a := i)
        rwa [List.mem_append, List.mem_range] at this
      rw [← hf]
      constructor
      · rintro (h | h)
        · exact Or.inl ⟨root, r1.root, ids_reach k root nd r1.ok i h⟩
        · exact Or.inr (hfree' r1.good i h)
      · rintro (⟨root', hr, h⟩ | h)
        · rw [r1.root] at hr; injection hr with hr; subst hr
          obtain ⟨_, _, _, h, _⟩ := reach_level r1.ok h
          exact Or.inl h
        · exact Or.inr (hfree r1.good i h)
    · rw [r1.root] at hr; injection hr with hr; subst hr
      refine ⟨fun i hi hfi => ?_, fun i e hi he => ?_, ?_⟩
      · obtain ⟨_, _, _, h, _⟩ := reach_level r1.ok hi
        have hnd := r1.good.nodup
        rw [List.nodup_append] at hnd
        exact hnd.2.2 i h i (hfree r1.good i hfi) rfl
      · have := r4.mem_iff.1 (holds_ents r1.ok hi he)
        exact ⟨this, covers_iff.1 (r6.1 e this)⟩
      · intro i n h s c j e hi hn hk hh hs hc hj he
        obtain ⟨k', n', q1, _⟩ := reach_level r1.ok hi
        have : n = n' := by have := q1.get; rw [hn] at this; exact Option.some.inj this
        subst this
        cases k' with
        | zero => have := q1.kind; rw [hk] at this; simp [kindOf] at this
        | succ k' =>
          obtain ⟨s', c', cn, R, hs', hsc, hcn, _, hcont, _⟩ := q1.pick hh
          rw [hs] at hs'; injection hs' with hs'; subst hs'
          rw [hc] at hsc; injection hsc with hsc; subst hsc
          exact covers_iff.1 (hcont.1 e (holds_ents hcn hj he))

end

/-- `r` is the smallest rectangle that covers the entries selected by `p`. -/
def Smallest (r : Rect N D) (p : Ent N T D → Prop) : Prop := (∀ e, p e → Covers r e.1) ∧ ∀ q, (∀ e, p e → Covers q e.1) → Covers q r

section
local instance : Mode := ⟨True⟩

/-- **C118** After any history with fewer than `limit M` insertions that does not insert the origin and whose predicates for deletion only
select entries with the given rectangle: the rectangle of the tree is the smallest one that covers the stored entries (if there are any), and the
rectangle kept for a child is the smallest one that covers the entries held below it. -/
theorem C118_tight_partial [NeZero D] [DecidableEq T] {M : Nat} (hM : 3 ≤ M) (ops : List (Op N T D)) (hn : inserts ops < limit M)
    (hp : ∀ op ∈ ops, op.Plain) :
    ∃ st os m, run M (RT.init : RT N T D) ops = .ok (st, os) ∧ Steps [] ops os m ∧ (m ≠ [] → Smallest st.rect (· ∈ m)) ∧
      ∀ root, st.root = some root →
        ∀ i n h s c, Reach st.nodes root i → st.nodes[i]? = some n → n.kind = .branch → h < n.count → n.slots[h]? = some s →
          s.2 = .child c → Smallest s.1 (fun e => ∃ j, Reach st.nodes c j ∧ Holds st.nodes j e) := by
  rw [limit_eq] at hn
  obtain ⟨st, os, m, h1, h2, h3⟩ := run_ok hM ops (B := 0) (by omega) (Rep.init M) (fun _ => hp) (fun _ e he => by cases he)
  refine ⟨st, os, m, h1, h2, ?_⟩
  rcases h3 with ⟨r1, r2, r3, r4, fl, r5, r6⟩ | ⟨k, root, nd, fl, r1, r2, r3, r4, r5, r6⟩
  · subst r4
    exact ⟨fun h => absurd rfl h, fun root hr => by rw [r1] at hr; cases hr⟩
  · refine ⟨fun hne => ⟨fun e he => covers_iff.1 (r6.1 e he), fun q hq =>
      covers_iff.1 (r6.2 trivial hne q fun e he => covers_iff.2 (hq e he))⟩, fun root' hr => ?_⟩
    rw [r1.root] at hr; injection hr with hr; subst hr
    intro i n h s c hi hn hk hh hs hc
    obtain ⟨k', n', q1, _⟩ := reach_level r1.ok hi
    have : n = n' := by have := q1.get; rw [hn] at this; exact Option.some.inj this
    subst this
    cases k' with
    | zero => have := q1.kind; rw [hk] at this; simp [kindOf] at this
    | succ k' =>
      obtain ⟨s', c', cn, R, hs', hsc, hcn, hcn1, hcont, _⟩ := q1.pick hh
      rw [hs] at hs'; injection hs' with hs'; subst hs'
      rw [hc] at hsc; injection hsc with hsc; subst hsc
      refine ⟨fun e ⟨j, hj, he⟩ => covers_iff.1 (hcont.1 e (holds_ents hcn hj he)), fun q hq =>
        covers_iff.1 (hcont.2 trivial (nEnts_ne hcn hcn1) q fun e he => covers_iff.2 (hq e (ents_holds k' c cn hcn e he)))⟩

end

/-! ## Examples and the defect -/

/-- Natural numbers as coordinates. -/
instance : Coord Nat where
  lt a b := decide (a < b)
  sub a b := a - b
  mul a b := a * b
  zero := 0
  one := 1
  inf := 2 ^ 32
  asymm h := by simp at *; omega
  ntrans h1 h2 := by simp at *; omega

def box (a b : Nat) : Rect Nat 1 := ⟨fun _ => a, fun _ => b⟩

def exOps : List (Op Nat Nat 1) :=
  ((List.range 10).map fun i => .insert (box i (i + 1)) i) ++
    [.size, .delete (box 3 4) 3, .delete (box 3 4) 9, .deleteFn (box 5 5) (fun _ d => d == 4), .size, .search (box 6 6) (fun _ _ => true),
      .search (box 0 9) (fun acc _ => acc.length < 2)]

def exShow : Out Nat Nat 1 → List Nat
  | .none => []
  | .found es => es.map Prod.snd
  | .count n => [n]

/-- Non-trivial history: splits, deletions, searches. -/
example : (run 3 (RT.init : RT Nat Nat 1) exOps).map (fun r => (r.2.drop 10).map exShow) = .ok [[10], [], [], [], [8], [5, 6], [2, 0, 1]] := by
  decide +kernel

example : inserts exOps < limit 3 := by decide

/-- Inserting the same point over and over. -/
def same (M : Nat) : Nat → RT Nat Nat 1 → Res (RT Nat Nat 1)
  | 0, st => .ok st
  | n + 1, st => do
    let st' ← RTree.insert M st (box 0 0) 0
    same M n st'

/-- **C36** (defect) The path hints have sixteen entries (rtree.h:627), but the tree grows higher: with a node capacity of 3, inserting the same point 35
times gives a tree of height 17, and the next insertion indexes `path_hint_` out of bounds (rtree.h:383). -/
theorem C36_insert_violated : ∃ st : RT Nat Nat 1, same 3 35 RT.init = .ok st ∧ st.count = 35 ∧ st.height = 17 ∧
    RTree.insert 3 st (box 0 0) 0 = .error .ub := by
  have h : (match same 3 35 (RT.init : RT Nat Nat 1) with
      | .ok st => st.count == 35 && st.height == 17 && (match RTree.insert 3 st (box 0 0) 0 with | .error .ub => true | _ => false)
      | _ => false) = true := by decide +kernel
  cases hx : same 3 35 (RT.init : RT Nat Nat 1) with
  | ok a =>
    rw [hx] at h
    simp only [Bool.and_eq_true, beq_iff_eq] at h
    refine ⟨a, rfl, h.1.1, h.1.2, ?_⟩
    have h2 := h.2
    cases hy : RTree.insert 3 a (box 0 0) 0 with
    | ok b => rw [hy] at h2; cases h2
    | error e => rw [hy] at h2; cases e <;> first | rfl | cases h2
  | error e => rw [hx] at h; cases h

theorem same_snoc (M : Nat) : ∀ (n : Nat) (st : RT Nat Nat 1), same M (n + 1) st = same M n st >>= fun s => RTree.insert M s (box 0 0) 0
  | 0, st => by
    show (RTree.insert M st (box 0 0) 0 >>= fun s => same M 0 s) = RTree.insert M st (box 0 0) 0
    cases RTree.insert M st (box 0 0) 0 <;> rfl
  | n + 1, st => by
    conv => lhs; unfold same
    conv => rhs; unfold same
    cases RTree.insert M st (box 0 0) 0 with
    | ok a => exact same_snoc M n a
    | error e => rfl

/-- **C35** (defect) A history of 36 insertions with undefined behaviour. -/
theorem C35_path_hint_violated : same 3 36 (RT.init : RT Nat Nat 1) = .error .ub := by
  obtain ⟨st, h1, _, _, h2⟩ := C36_insert_violated
  rw [same_snoc, h1, ok_bind, h2]

/-! ## Smallest rectangles: example and defects -/

/-- The history `exOps` with another predicate for deletion, without the origin. -/
def tightOps : List (Op Nat Nat 1) :=
  ((List.range 10).map fun i => .insert (box (i + 1) (i + 2)) i) ++
    [.delete (box 10 11) 9, .delete (box 3 4) 2, .deleteFn (box 1 2) (fun r d => r.lo 0 == 1 && r.hi 0 == 2 && d == 0), .search (box 6 6) (fun _ _ => true)]

example : (run 3 (RT.init : RT Nat Nat 1) tightOps).map (fun r => (r.1.rect.lo 0, r.1.rect.hi 0, r.1.height)) = .ok (2, 10, 3) := by decide +kernel

theorem same_box {a b c d : Nat} : Same (box a b) (box c d) ↔ a = c ∧ b = d := by
  constructor
  · intro h
    obtain ⟨⟨h1, h2⟩, h3, h4⟩ := h 0
    simp [box, Coord.lt] at h1 h2 h3 h4
    exact ⟨Nat.le_antisymm (Nat.le_of_not_lt (of_decide_eq_false h2)) (Nat.le_of_not_lt (of_decide_eq_false h1)),
      Nat.le_antisymm (Nat.le_of_not_lt (of_decide_eq_false h4)) (Nat.le_of_not_lt (of_decide_eq_false h3))⟩
  · rintro ⟨rfl, rfl⟩ i
    simp [box, Coord.lt]

example : (∀ op ∈ tightOps, op.Plain) ∧ inserts tightOps < limit 3 := by
  refine ⟨?_, by decide⟩
  intro op ho
  simp only [tightOps, List.mem_append, List.mem_map, List.mem_range, List.mem_cons, List.not_mem_nil, or_false] at ho
  rcases ho with ⟨i, _, rfl⟩ | rfl | rfl | rfl | rfl
  · intro h
    have := (h 0).2
    simp [box, origin, Coord.lt, Coord.zero] at this
  · trivial
  · trivial
  · intro r d h
    simp only [Bool.and_eq_true, beq_iff_eq] at h
    have : r = box 1 2 := by
      cases r with
      | mk lo hi => simp only [box, Rect.mk.injEq]; exact ⟨funext fun i => by rw [Subsingleton.elim i 0]; exact h.1.1, funext fun i => by rw [Subsingleton.elim i 0]; exact h.1.2⟩
    rw [this]
    exact same_box.2 ⟨rfl, rfl⟩
  · trivial

theorem not_smallest {r q : Rect Nat 1} {p : Ent Nat Nat 1 → Prop} (hq : ∀ e, p e → Covers q e.1) (h : q.hi 0 < r.hi 0) : ¬Smallest r p := by
  intro hs
  have := (hs.2 q hq 0).2
  simp [Coord.lt] at this
  omega

def originOps : List (Op Nat Nat 1) :=
  [.insert (box 0 0) 0, .insert (box 0 0) 1, .insert (box 0 0) 2, .insert (box 1 1) 3, .delete (box 1 1) 3]

/-- **C118** (defect) `node_delete` compares the rectangle of the child with a default constructed rectangle when it descended along the
path hint (rtree.h:506, 541-542), so that it misses a rectangle that shrinks to the origin: after inserting the origin three times, inserting 1 and
deleting it again, the tree holds the origin only, but its rectangle still extends to 1. -/
theorem C118_origin_violated : ∃ (st : RT Nat Nat 1) (os : List (Out Nat Nat 1)) (m : List (Ent Nat Nat 1)), run 3 RT.init originOps = .ok (st, os) ∧ Steps [] originOps os m ∧ m ≠ [] ∧
    ¬Smallest st.rect (· ∈ m) := by
  have h : (match run 3 (RT.init : RT Nat Nat 1) originOps with
      | .ok (st, os) => st.rect.hi 0 == 1 && (match os with | [.none, .none, .none, .none, .none] => true | _ => false)
      | _ => false) = true := by decide +kernel
  cases hx : run 3 (RT.init : RT Nat Nat 1) originOps with
  | error e => rw [hx] at h; cases h
  | ok r =>
    obtain ⟨st, os⟩ := r
    rw [hx] at h
    simp only [Bool.and_eq_true, beq_iff_eq] at h
    obtain ⟨h1, h2⟩ := h
    have ho : os = [.none, .none, .none, .none, .none] := by
      split at h2
      · rfl
      · cases h2
    subst ho
    refine ⟨st, _, [(box 0 0, 2), (box 0 0, 1), (box 0 0, 0)], rfl, ?_, by simp, ?_⟩
    · exact .cons (.insert _ _ _) (.cons (.insert _ _ _) (.cons (.insert _ _ _) (.cons (.insert _ _ _)
        (.cons (.deleteHit _ _ _ (box 1 1) _ (.refl _) (same_box.2 ⟨rfl, rfl⟩)) (.nil _)))))
    · refine not_smallest (q := box 0 0) (fun e he => ?_) (by rw [h1]; decide)
      simp only [List.mem_cons, List.not_mem_nil, or_false] at he
      rcases he with rfl | rfl | rfl <;> exact covers_iff.1 (contains_refl _)

def functionOps : List (Op Nat Nat 1) :=
  [.insert (box 1 9) 0, .insert (box 2 3) 1, .deleteFn (box 4 5) (fun _ d => d == 0)]

/-- **C118** (defect) Whether the rectangle of a leaf must be recomputed is decided by the rectangle given to `delete_element_with_function`,
not by that of the removed entry (rtree.h:492). -/
theorem C118_function_violated : ∃ (st : RT Nat Nat 1) (os : List (Out Nat Nat 1)) (m : List (Ent Nat Nat 1)), run 3 RT.init functionOps = .ok (st, os) ∧ Steps [] functionOps os m ∧ m ≠ [] ∧
    ¬Smallest st.rect (· ∈ m) := by
  have h : (match run 3 (RT.init : RT Nat Nat 1) functionOps with
      | .ok (st, os) => st.rect.hi 0 == 9 && (match os with | [.none, .none, .none] => true | _ => false)
      | _ => false) = true := by decide +kernel
  cases hx : run 3 (RT.init : RT Nat Nat 1) functionOps with
  | error e => rw [hx] at h; cases h
  | ok r =>
    obtain ⟨st, os⟩ := r
    rw [hx] at h
    simp only [Bool.and_eq_true, beq_iff_eq] at h
    obtain ⟨h1, h2⟩ := h
    have ho : os = [.none, .none, .none] := by
      split at h2
      · rfl
      · cases h2
    subst ho
    refine ⟨st, _, [(box 2 3, 1)], rfl, ?_, by simp, ?_⟩
    · exact .cons (.insert _ _ _) (.cons (.insert _ _ _) (.cons (.deleteFnHit _ _ _ _ (box 1 9, 0) (.swap _ _ _) rfl) (.nil _)))
    · refine not_smallest (q := box 2 3) (fun e he => ?_) (by rw [h1]; decide)
      simp only [List.mem_cons, List.not_mem_nil, or_false] at he
      subst he
      exact covers_iff.1 (contains_refl _)

end Cista.RTree

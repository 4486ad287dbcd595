import Verif.Fail.NVec

/-!
# C143 — the arguments of `basic_nvec::emplace_back`

Source: `/repo/include/cista/containers/nvec.h` and the functions of `vector.h` it calls with `data_`.

* `emplace_back(c)` is a forwarding reference, but `add` (nvec.h:540-553) wraps the iterators of the innermost containers into
  move iterators whether `c` is a temporary or not.  `moved x` is the value an element `x` has after it was moved from: `x`
  itself for trivially copyable types and for elements that are only reachable as `const`.
* `nv.emplace_back(nv[i])` iterates over a `meta_bucket` of `nv` itself while `nv` grows.  The (meta) buckets refer to the index
  tables by position, so growing index tables do no harm; the iterators of the innermost buckets point into `data_`, and
  `data_.insert` reserves room before it reads them (vector.h:254-286, `reserve` frees the old memory, proved in C10).
  `cap` is the capacity of `data_`.
-/
set_option linter.unusedSimpArgs false

namespace Cista.Multi.NVec

variable {α : Type}

/-- nvec.h:540-553 `add<L>(c)` for a container `c` that is not part of the nvec: the nvec and `c` afterwards. -/
def addFrom (W : Nat) (moved : α → α) : (L : Nat) → Nest α L → NV α → NV α × Nest α L
  | 0, c, v =>
    let c : List α := c
    (add W 0 c v, c.map moved)
  | L + 1, c, v =>
    let c : List (Nest α L) := c
    c.foldl (fun s x => let r := addFrom W moved L x s.1; (r.1, (s.2 ++ [r.2] : List (Nest α L))))
      (v.push (L + 1) (((v.index L).length + c.length - 1) % 2 ^ W), ([] : List (Nest α L)))

/-- nvec.h:470-478 `emplace_back(c)`, `N = L + 1`. -/
def emplaceBackFrom (W L : Nat) (moved : α → α) (v : NV α) (c : Nest α L) : NV α × Nest α L :=
  addFrom W moved L c (if (v.index 0).length = 0 then
    { v with index := fun k => if k ≤ L then v.index k ++ [0] else v.index k } else v)

/-- nvec.h:540-553 `add<L>(c)` where `c` is the (meta) bucket at position `i` of level `L` of the same nvec.  Its iterators are
computed after the index was pushed. -/
def addOwn (W cap : Nat) (moved : α → α) : (L : Nat) → Nat → NV α → Res (NV α)
  | 0, i, v => do
    let n ← v.bucketSize 0 i
    let v := v.push 0 ((v.data.length + n) % 2 ^ W)
    let b ← v.idx 0 i
    let e ← v.idx 0 (i + 1)
    let xs ← v.leaf i
    require (xs.isEmpty || v.data.length + xs.length ≤ cap)
    return { v with data := v.data.take b ++ xs.map moved ++ v.data.drop e ++ xs }
  | L + 1, i, v => do
    let n ← v.bucketSize (L + 1) i
    let v := v.push (L + 1) (((v.index L).length + n - 1) % 2 ^ W)
    let b ← v.idx (L + 1) i
    let e ← v.idx (L + 1) (i + 1)
    (List.range' b (e - b)).foldlM (fun v k => addOwn W cap moved L k v) v

/-- nvec.h:470-478 `nv.emplace_back(nv[i])`, `N = L + 1`. -/
def emplaceBackOwn (W cap L : Nat) (moved : α → α) (v : NV α) (i : Nat) : Res (NV α) :=
  addOwn W cap moved L i (if (v.index 0).length = 0 then
    { v with index := fun k => if k ≤ L then v.index k ++ [0] else v.index k } else v)

/-! ## Specification -/

/-- The elements of a nested container, in order. -/
def Nest.elems : (L : Nat) → Nest α L → List α
  | 0, c => c
  | L + 1, c => List.flatten (List.map (Nest.elems L) c)

/-- Apply a function to every element of a nested container. -/
def Nest.map (f : α → α) : (L : Nat) → Nest α L → Nest α L
  | 0, c => List.map f c
  | L + 1, c => List.map (Nest.map f L) c

/-- A call of `emplace_back`: with a container of its own, or with container `i` of the nvec itself while `data_` has the capacity
`cap`. -/
inductive Call (α : Type) (L : Nat) where
  | other (c : Nest α L)
  | own (i cap : Nat)

/-- The calls one after the other. -/
def runCalls (W L : Nat) (moved : α → α) : NV α → List (Call α L) → Res (NV α)
  | v, [] => .ok v
  | v, .other c :: ops => runCalls W L moved (emplaceBackFrom W L moved v c).1 ops
  | v, .own i cap :: ops => do runCalls W L moved (← emplaceBackOwn W cap L moved v i) ops

/-- Every call appends what it was given. -/
def specCalls {L : Nat} : List (Nest α L) → List (Call α L) → List (Nest α L)
  | C, [] => C
  | C, .other c :: ops => specCalls (C ++ [c]) ops
  | C, .own i _ :: ops => specCalls (C ++ C[i]?.toList) ops

/-- All counts fit the index type, and `data_` has room for the elements of own containers. -/
def CallsAllowed (W L : Nat) : List (Nest α L) → List (Call α L) → Prop
  | C, [] => Fits W L C
  | C, .other c :: ops => Fits W L (C ++ [c]) ∧ CallsAllowed W L (C ++ [c]) ops
  | C, .own i cap :: ops => ∃ c, C[i]? = some c ∧ Fits W L (C ++ [c]) ∧
      ((C.map (Nest.elems L)).flatten.length + (Nest.elems L c).length ≤ cap ∨ Nest.elems L c = []) ∧
      CallsAllowed W L (C ++ [c]) ops

/-! ## Proofs -/

theorem dataOf_elems : (L : Nat) → (C : List (Nest α L)) → dataOf L C = (C.map (Nest.elems L)).flatten
  | 0, C => by
    show List.flatten C = _
    rw [show List.map (Nest.elems 0) C = C from List.map_id C]
  | L + 1, C => by
    show dataOf L (List.flatten (α := Nest α L) C) = _
    rw [dataOf_elems L, List.map_flatten, List.flatten_flatten, List.map_map]
    rfl

theorem dataOf_append (L : Nat) (A B : List (Nest α L)) : dataOf L (A ++ B) = dataOf L A ++ dataOf L B := by
  rw [dataOf_elems, dataOf_elems, dataOf_elems, List.map_append, List.flatten_append]

theorem dataOf_single (L : Nat) (c : Nest α L) : dataOf L [c] = Nest.elems L c := by
  rw [dataOf_elems]; simp

theorem dataOf_cons (L : Nat) (c : Nest α L) (B : List (Nest α L)) : dataOf L (c :: B) = Nest.elems L c ++ dataOf L B := by
  rw [dataOf_elems, dataOf_elems]; rfl

theorem elems_succ (L : Nat) (c : Nest α (L + 1)) : Nest.elems (L + 1) c = dataOf L (c : List (Nest α L)) :=
  (dataOf_elems L c).symm

theorem elems_map (f : α → α) : (L : Nat) → (c : Nest α L) → Nest.elems L (Nest.map f L c) = (Nest.elems L c).map f
  | 0, _ => rfl
  | L + 1, c => by
    show List.flatten (List.map (Nest.elems L) (List.map (Nest.map f L) (c : List (Nest α L)))) =
      List.map f (List.flatten (List.map (Nest.elems L) (c : List (Nest α L))))
    rw [List.map_flatten, List.map_map, List.map_map]
    congr 1
    exact List.map_congr_left fun x _ => elems_map f L x

theorem map_fixed (f : α → α) : (L : Nat) → (c : Nest α L) → (∀ x ∈ Nest.elems L c, f x = x) → Nest.map f L c = c
  | 0, c, h => (List.map_congr_left h).trans (List.map_id (c : List α))
  | L + 1, c, h => by
    refine (List.map_congr_left (l := (c : List (Nest α L))) fun d hd => ?_).trans (List.map_id (c : List (Nest α L)))
    refine map_fixed f L d fun x hx => h x ?_
    exact List.mem_flatten.2 ⟨_, List.mem_map.2 ⟨d, hd, rfl⟩, hx⟩

theorem map_changed (f : α → α) (L : Nat) (c : Nest α L) {x : α} (hx : x ∈ Nest.elems L c) (hf : f x ≠ x) :
    Nest.map f L c ≠ c := by
  intro h
  have h2 := elems_map f L c
  rw [h] at h2
  have h3 : (Nest.elems L c).map f = (Nest.elems L c).map id := by rw [List.map_id]; exact h2.symm
  exact hf (List.map_inj_left.1 h3 x hx)

theorem addFrom_eq (W : Nat) (moved : α → α) : (L : Nat) → (c : Nest α L) → (v : NV α) →
    addFrom W moved L c v = (add W L c v, Nest.map moved L c)
  | 0, _, _ => rfl
  | L + 1, c, v => by
    have key : ∀ (cs : List (Nest α L)) (v : NV α) (a : List (Nest α L)),
        cs.foldl (fun s x => let r := addFrom W moved L x s.1; (r.1, (s.2 ++ [r.2] : List (Nest α L)))) (v, a) =
          (cs.foldl (fun v x => add W L x v) v, a ++ cs.map (Nest.map moved L)) := by
      intro cs
      induction cs with
      | nil => intro v a; simp
      | cons d cs ih =>
        intro v a
        simp only [List.foldl_cons, addFrom_eq W moved L d v]
        rw [ih]
        simp
    exact key c _ []

theorem add_data (W : Nat) : (L : Nat) → (c : Nest α L) → (v : NV α) → (add W L c v).data = v.data ++ Nest.elems L c
  | 0, _, _ => rfl
  | L + 1, c, v => by
    have key : ∀ (cs : List (Nest α L)) (v : NV α),
        (cs.foldl (fun v x => add W L x v) v).data = v.data ++ dataOf L cs := by
      intro cs
      induction cs with
      | nil => intro v; simp [dataOf_elems]
      | cons d cs ih => intro v; rw [List.foldl_cons, ih, add_data W L d v, dataOf_cons, List.append_assoc]
    rw [elems_succ]
    exact key c _

/-- The index tables depend on the number of elements only. -/
theorem add_congr (W : Nat) : (L : Nat) → (c : Nest α L) → (v w : NV α) → v.index = w.index →
    v.data.length = w.data.length → (add W L c v).index = (add W L c w).index
  | 0, c, v, w, h1, h2 => by simp only [add, NV.push, h1, h2]
  | L + 1, c, v, w, h1, h2 => by
    have key : ∀ (cs : List (Nest α L)) (v w : NV α), v.index = w.index → v.data.length = w.data.length →
        (cs.foldl (fun v x => add W L x v) v).index = (cs.foldl (fun v x => add W L x v) w).index := by
      intro cs
      induction cs with
      | nil => intro v w h _; exact h
      | cons d cs ih =>
        intro v w h1 h2
        rw [List.foldl_cons, List.foldl_cons]
        refine ih _ _ (add_congr W L d v w h1 h2) ?_
        rw [add_data, add_data, List.length_append, List.length_append, h2]
    simp only [add]
    refine key c _ _ ?_ h2
    simp only [NV.push, h1]

/-- Index tables only grow at the end. -/
theorem add_prefix (W : Nat) : (L : Nat) → (c : Nest α L) → (v : NV α) → (k : Nat) → v.index k <+: (add W L c v).index k
  | 0, c, v, k => by
    simp only [add, push_index]
    split
    · exact List.prefix_append _ _
    · exact List.prefix_rfl
  | L + 1, c, v, k => by
    have key : ∀ (cs : List (Nest α L)) (v : NV α), v.index k <+: (cs.foldl (fun v x => add W L x v) v).index k := by
      intro cs
      induction cs with
      | nil => intro v; exact List.prefix_rfl
      | cons d cs ih => intro v; exact (add_prefix W L d v k).trans (ih _)
    refine List.IsPrefix.trans ?_ (key c _)
    rw [push_index]
    split
    · exact List.prefix_append _ _
    · exact List.prefix_rfl

/-- The index tables start with those of content `C`. -/
def Pre (L : Nat) (v : NV α) (C : List (Nest α L)) : Prop := ∀ k, k ≤ L → offsAt L C k <+: v.index k

theorem Pre.down {L : Nat} {v : NV α} {C : List (Nest α (L + 1))} (h : Pre (L + 1) v C) :
    Pre L v (List.flatten (α := Nest α L) C) := fun k hk => by
  have := h k (by omega)
  simp only [offsAt] at this
  rwa [if_neg (by omega)] at this

theorem Pre.push {L : Nat} {v : NV α} {C : List (Nest α L)} (h : Pre L v C) (K x : Nat) : Pre L (v.push K x) C :=
  fun k hk => by
    rw [push_index]
    split
    · exact (h k hk).trans (List.prefix_append _ _)
    · exact h k hk

theorem prefix_get {β : Type} {l l' : List β} (h : l <+: l') {i : Nat} {x : β} (hi : l[i]? = some x) : l'[i]? = some x := by
  obtain ⟨t, rfl⟩ := h
  rw [List.getElem?_append_left (List.getElem?_eq_some_iff.1 hi).1]; exact hi

/-- Start and end of the container after `P`. -/
theorem idx_pre {β : Type} {v : NV α} {L : Nat} {P S : List (List β)} {c : List β} (h : offs (P ++ c :: S) <+: v.index L) :
    v.idx L P.length = .ok P.flatten.length ∧ v.idx L (P.length + 1) = .ok (P.flatten.length + c.length) := by
  have h1 : (offs (P ++ c :: S))[P.length]? = some P.flatten.length := by
    rw [offs_get? (by simp), List.take_left' rfl]
  have h2 : (offs (P ++ c :: S))[P.length + 1]? = some (P.flatten.length + c.length) := by
    rw [offs_get? (by simp), show P ++ c :: S = (P ++ [c]) ++ S by simp, List.take_left' (by simp), flatten_append_length]
    simp
  unfold NV.idx
  rw [prefix_get h h1, prefix_get h h2]
  exact ⟨rfl, rfl⟩

theorem offsAt_top (L : Nat) (C : List (Nest α (L + 1))) : offsAt (L + 1) C (L + 1) = offs (α := Nest α L) C := by
  simp only [offsAt, if_true]

theorem flatten_mid {β : Type} (P S : List (List β)) (c : List β) :
    (P ++ c :: S).flatten = P.flatten ++ c ++ S.flatten := by simp

/-- `add` of an own (meta) bucket with enough room. -/
theorem addOwn_ok (W cap : Nat) (moved : α → α) : (L : Nat) → (P S : List (Nest α L)) → (c : Nest α L) → (v : NV α) →
    (D D' : List α) → Pre L v (P ++ c :: S) → v.data = D ++ Nest.elems L c ++ D' → D.length = (dataOf L P).length →
    (Nest.elems L c = [] ∨ v.data.length + (Nest.elems L c).length ≤ cap) →
    addOwn W cap moved L P.length v =
      .ok ⟨D ++ (Nest.elems L c).map moved ++ D' ++ Nest.elems L c, (add W L c v).index⟩
  | 0, P, S, c, v, D, D', hp, hd, hl, hc => by
    have hd : v.data = D ++ (c : List α) ++ D' := hd
    have hc : (c : List α) = [] ∨ v.data.length + List.length (α := α) c ≤ cap := hc
    have h0 : offs (α := α) (P ++ c :: S) <+: v.index 0 := by simpa [offsAt] using hp 0 (Nat.le_refl _)
    obtain ⟨i1, i2⟩ := idx_pre (v := v) (L := 0) h0
    have hl : D.length = (List.flatten (α := α) P).length := hl
    generalize hx : (v.data.length + List.length (α := α) c) % 2 ^ W = x
    have h0' : offs (α := α) (P ++ c :: S) <+: (v.push 0 x).index 0 := by
      simpa [offsAt] using (hp.push 0 x) 0 (Nat.le_refl _)
    obtain ⟨j1, j2⟩ := idx_pre (v := v.push 0 x) (L := 0) h0'
    have hdl : v.data.length = D.length + List.length (α := α) c + D'.length := by
      rw [hd, List.length_append, List.length_append]
    have hsz : v.bucketSize 0 P.length = .ok (List.length (α := α) c) := by
      unfold NV.bucketSize
      rw [i1, i2]
      simp [bind, Except.bind, pure, Except.pure]
    have hleaf : (v.push 0 x).leaf P.length = .ok c := by
      unfold NV.leaf
      rw [j1, ok_bind, j2, ok_bind, show (decide ((List.flatten (α := α) P).length ≤ (List.flatten (α := α) P).length +
        List.length (α := α) c) && decide ((List.flatten (α := α) P).length + List.length (α := α) c ≤
          (v.push 0 x).data.length)) = true from by
          rw [Bool.and_eq_true]
          refine ⟨decide_eq_true (by omega), decide_eq_true ?_⟩
          show _ ≤ v.data.length
          omega, require_true, ok_bind, Nat.add_sub_cancel_left]
      show Except.ok (List.take _ (List.drop _ v.data)) = _
      rw [hd, ← hl, List.append_assoc, List.drop_left' rfl, List.take_left' rfl]
    have hreq : (List.isEmpty (α := α) c || decide ((v.push 0 x).data.length + List.length (α := α) c ≤ cap)) = true := by
      rcases hc with h | h
      · rw [h]; rfl
      · rw [show decide ((v.push 0 x).data.length + List.length (α := α) c ≤ cap) = true from decide_eq_true h, Bool.or_true]
    unfold addOwn
    rw [hsz, ok_bind, hx]
    dsimp only
    rw [j1, ok_bind, j2, ok_bind, hleaf, ok_bind, hreq, require_true, ok_bind]
    have e1 : List.take (List.flatten (α := α) P).length v.data = D := by
      rw [hd, ← hl, List.append_assoc, List.take_left' rfl]
    have e2 : List.drop ((List.flatten (α := α) P).length + List.length (α := α) c) v.data = D' := by
      rw [hd, ← hl, List.drop_left' (by rw [List.length_append])]
    show Except.ok (⟨List.take _ v.data ++ _ ++ List.drop _ v.data ++ _, _⟩ : NV α) = _
    rw [e1, e2]
    simp only [add, hx]
    rfl
  | L + 1, P, S, c, v, D, D', hp, hd, hl, hc => by
    have h0 : offs (α := Nest α L) (P ++ c :: S) <+: v.index (L + 1) := by
      rw [← offsAt_top]; exact hp (L + 1) (Nat.le_refl _)
    obtain ⟨i1, i2⟩ := idx_pre (v := v) (L := L + 1) h0
    generalize hx : ((v.index L).length + List.length (α := Nest α L) c - 1) % 2 ^ W = x
    have hp' := hp.push (L + 1) x
    have h0' : offs (α := Nest α L) (P ++ c :: S) <+: (v.push (L + 1) x).index (L + 1) := by
      rw [← offsAt_top]; exact hp' (L + 1) (Nat.le_refl _)
    obtain ⟨j1, j2⟩ := idx_pre (v := v.push (L + 1) x) (L := L + 1) h0'
    have hsz : v.bucketSize (L + 1) P.length = .ok (List.length (α := Nest α L) c) := by
      unfold NV.bucketSize
      rw [i1, i2]
      simp [bind, Except.bind, pure, Except.pure]
    have key : ∀ (cs A B : List (Nest α L)) (w : NV α) (D D' : List α), Pre L w (A ++ cs ++ B) →
        w.data = D ++ dataOf L cs ++ D' → D.length = (dataOf L A).length →
        (dataOf L cs = [] ∨ w.data.length + (dataOf L cs).length ≤ cap) →
        (List.range' A.length cs.length).foldlM (fun v k => addOwn W cap moved L k v) w =
          .ok ⟨D ++ (dataOf L cs).map moved ++ D' ++ dataOf L cs, (cs.foldl (fun v x => add W L x v) w).index⟩ := by
      intro cs
      induction cs with
      | nil =>
        intro A B w D D' _ hd _ _
        have e : dataOf L ([] : List (Nest α L)) = [] := by rw [dataOf_elems]; rfl
        rw [e] at hd ⊢
        simp only [List.append_nil, List.map_nil] at hd ⊢
        rw [← hd]
        rfl
      | cons d cs ih =>
        intro A B w D D' hp hd hl hc
        rw [dataOf_cons] at hd hc ⊢
        have hroom : Nest.elems L d = [] ∨ w.data.length + (Nest.elems L d).length ≤ cap := by
          rcases hc with h | h
          · exact Or.inl (List.append_eq_nil_iff.1 h).1
          · rw [List.length_append] at h; exact Or.inr (by omega)
        have hstep := addOwn_ok W cap moved L A (cs ++ B) d w D (dataOf L cs ++ D') (by simpa using hp)
          (by rw [hd]; simp) hl hroom
        rw [List.length_cons, List.range'_succ, List.foldlM_cons, hstep, ok_bind]
        generalize hw : (⟨D ++ (Nest.elems L d).map moved ++ (dataOf L cs ++ D') ++ Nest.elems L d, (add W L d w).index⟩ : NV α) = w'
        have hwd : w'.data = (D ++ (Nest.elems L d).map moved) ++ dataOf L cs ++ (D' ++ Nest.elems L d) := by
          rw [← hw]; simp
        have hwi : w'.index = (add W L d w).index := by rw [← hw]
        have hlen : w'.data.length = w.data.length + (Nest.elems L d).length := by
          rw [hwd, hd]; simp; omega
        have hpre : Pre L w' ((A ++ [d]) ++ cs ++ B) := by
          intro k hk
          rw [hwi]
          have := hp k hk
          rw [show (A ++ [d]) ++ cs ++ B = A ++ (d :: cs) ++ B by simp]
          exact this.trans (add_prefix W L d w k)
        have h2 := ih (A ++ [d]) B w' _ _ hpre hwd
          (by rw [dataOf_append, dataOf_single, List.length_append, List.length_append, List.length_map, hl])
          (by
            rcases hc with h | h
            · exact Or.inl (List.append_eq_nil_iff.1 h).2
            · rw [List.length_append] at h; rw [hlen]; exact Or.inr (by omega))
        rw [List.length_append, List.length_singleton] at h2
        rw [h2]
        have e : (List.foldl (fun v x => add W L x v) w' cs).index =
            (List.foldl (fun v x => add W L x v) (add W L d w) cs).index := by
          have gen : ∀ (cs : List (Nest α L)) (v w : NV α), v.index = w.index → v.data.length = w.data.length →
              (cs.foldl (fun v x => add W L x v) v).index = (cs.foldl (fun v x => add W L x v) w).index := by
            intro cs
            induction cs with
            | nil => intro v w h _; exact h
            | cons d cs ih =>
              intro v w h1 h2
              rw [List.foldl_cons, List.foldl_cons]
              refine ih _ _ (add_congr W L d v w h1 h2) ?_
              rw [add_data, add_data, List.length_append, List.length_append, h2]
          exact gen cs _ _ hwi (by rw [hlen, add_data, List.length_append])
        rw [e]
        simp
    unfold addOwn
    rw [hsz, ok_bind, hx]
    dsimp only
    rw [j1, ok_bind, j2, ok_bind, Nat.add_sub_cancel_left]
    have hpd := hp'.down
    rw [flatten_mid (β := Nest α L)] at hpd
    rw [elems_succ] at hd hc ⊢
    have := key c _ _ (v.push (L + 1) x) D D' hpd hd hl hc
    rw [this]
    simp only [add, hx]

/-- `add` of an own (meta) bucket that has elements, without enough room. -/
theorem addOwn_ub (W cap : Nat) (moved : α → α) : (L : Nat) → (P S : List (Nest α L)) → (c : Nest α L) → (v : NV α) →
    (D D' : List α) → Pre L v (P ++ c :: S) → v.data = D ++ Nest.elems L c ++ D' → D.length = (dataOf L P).length →
    Nest.elems L c ≠ [] → cap < v.data.length + (Nest.elems L c).length →
    addOwn W cap moved L P.length v = .error .ub
  | 0, P, S, c, v, D, D', hp, hd, hl, hne, hc => by
    have hd : v.data = D ++ (c : List α) ++ D' := hd
    have hne : (c : List α) ≠ [] := hne
    have hc : cap < v.data.length + List.length (α := α) c := hc
    have h0 : offs (α := α) (P ++ c :: S) <+: v.index 0 := by simpa [offsAt] using hp 0 (Nat.le_refl _)
    obtain ⟨i1, i2⟩ := idx_pre (v := v) (L := 0) h0
    have hl : D.length = (List.flatten (α := α) P).length := hl
    generalize hx : (v.data.length + List.length (α := α) c) % 2 ^ W = x
    have h0' : offs (α := α) (P ++ c :: S) <+: (v.push 0 x).index 0 := by
      simpa [offsAt] using (hp.push 0 x) 0 (Nat.le_refl _)
    obtain ⟨j1, j2⟩ := idx_pre (v := v.push 0 x) (L := 0) h0'
    have hdl : v.data.length = D.length + List.length (α := α) c + D'.length := by
      rw [hd, List.length_append, List.length_append]
    have hsz : v.bucketSize 0 P.length = .ok (List.length (α := α) c) := by
      unfold NV.bucketSize
      rw [i1, i2]
      simp [bind, Except.bind, pure, Except.pure]
    have hleaf : (v.push 0 x).leaf P.length = .ok c := by
      unfold NV.leaf
      rw [j1, ok_bind, j2, ok_bind, show (decide ((List.flatten (α := α) P).length ≤ (List.flatten (α := α) P).length +
        List.length (α := α) c) && decide ((List.flatten (α := α) P).length + List.length (α := α) c ≤
          (v.push 0 x).data.length)) = true from by
          rw [Bool.and_eq_true]
          refine ⟨decide_eq_true (by omega), decide_eq_true ?_⟩
          show _ ≤ v.data.length
          omega, require_true, ok_bind, Nat.add_sub_cancel_left]
      show Except.ok (List.take _ (List.drop _ v.data)) = _
      rw [hd, ← hl, List.append_assoc, List.drop_left' rfl, List.take_left' rfl]
    have hreq : (List.isEmpty (α := α) c || decide ((v.push 0 x).data.length + List.length (α := α) c ≤ cap)) = false := by
      rw [show decide ((v.push 0 x).data.length + List.length (α := α) c ≤ cap) = false from
        decide_eq_false (by show ¬ v.data.length + _ ≤ _; omega), Bool.or_false]
      cases hcc : (c : List α) with
      | nil => exact absurd hcc hne
      | cons => rfl
    unfold addOwn
    rw [hsz, ok_bind, hx]
    dsimp only
    rw [j1, ok_bind, j2, ok_bind, hleaf, ok_bind, hreq, require_false, error_bind]
  | L + 1, P, S, c, v, D, D', hp, hd, hl, hne, hc => by
    have h0 : offs (α := Nest α L) (P ++ c :: S) <+: v.index (L + 1) := by
      rw [← offsAt_top]; exact hp (L + 1) (Nat.le_refl _)
    obtain ⟨i1, i2⟩ := idx_pre (v := v) (L := L + 1) h0
    generalize hx : ((v.index L).length + List.length (α := Nest α L) c - 1) % 2 ^ W = x
    have hp' := hp.push (L + 1) x
    have h0' : offs (α := Nest α L) (P ++ c :: S) <+: (v.push (L + 1) x).index (L + 1) := by
      rw [← offsAt_top]; exact hp' (L + 1) (Nat.le_refl _)
    obtain ⟨j1, j2⟩ := idx_pre (v := v.push (L + 1) x) (L := L + 1) h0'
    have hsz : v.bucketSize (L + 1) P.length = .ok (List.length (α := Nest α L) c) := by
      unfold NV.bucketSize
      rw [i1, i2]
      simp [bind, Except.bind, pure, Except.pure]
    have key : ∀ (cs A B : List (Nest α L)) (w : NV α) (D D' : List α), Pre L w (A ++ cs ++ B) →
        w.data = D ++ dataOf L cs ++ D' → D.length = (dataOf L A).length →
        dataOf L cs ≠ [] → cap < w.data.length + (dataOf L cs).length →
        (List.range' A.length cs.length).foldlM (fun v k => addOwn W cap moved L k v) w = .error .ub := by
      intro cs
      induction cs with
      | nil =>
        intro A B w D D' _ _ _ hne _
        exact absurd (by rw [dataOf_elems]; rfl) hne
      | cons d cs ih =>
        intro A B w D D' hp hd hl hne hc
        rw [dataOf_cons] at hd hc hne
        rw [List.length_append] at hc
        rw [List.length_cons, List.range'_succ, List.foldlM_cons]
        by_cases hroom : Nest.elems L d = [] ∨ w.data.length + (Nest.elems L d).length ≤ cap
        · rw [addOwn_ok W cap moved L A (cs ++ B) d w D (dataOf L cs ++ D') (by simpa using hp) (by rw [hd]; simp) hl
            hroom, ok_bind]
          generalize hw : (⟨D ++ (Nest.elems L d).map moved ++ (dataOf L cs ++ D') ++ Nest.elems L d, (add W L d w).index⟩ : NV α) = w'
          have hwd : w'.data = (D ++ (Nest.elems L d).map moved) ++ dataOf L cs ++ (D' ++ Nest.elems L d) := by
            rw [← hw]; simp
          have hwi : w'.index = (add W L d w).index := by rw [← hw]
          have hlen : w'.data.length = w.data.length + (Nest.elems L d).length := by
            rw [hwd, hd]; simp; omega
          have hpre : Pre L w' ((A ++ [d]) ++ cs ++ B) := by
            intro k hk
            rw [hwi, show (A ++ [d]) ++ cs ++ B = A ++ (d :: cs) ++ B by simp]
            exact (hp k hk).trans (add_prefix W L d w k)
          have h2 := ih (A ++ [d]) B w' _ _ hpre hwd
            (by rw [dataOf_append, dataOf_single, List.length_append, List.length_append, List.length_map, hl])
            (by
              intro h
              rw [h, List.length_nil] at hc
              rw [h, List.append_nil] at hne
              rcases hroom with h' | h'
              · exact hne h'
              · omega)
            (by rw [hlen]; omega)
          rw [List.length_append, List.length_singleton] at h2
          exact h2
        · have hn : Nest.elems L d ≠ [] := fun h => hroom (Or.inl h)
          have hcap : cap < w.data.length + (Nest.elems L d).length :=
            Nat.lt_of_not_le fun h => hroom (Or.inr h)
          rw [addOwn_ub W cap moved L A (cs ++ B) d w D (dataOf L cs ++ D') (by simpa using hp) (by rw [hd]; simp) hl
            hn hcap, error_bind]
    unfold addOwn
    rw [hsz, ok_bind, hx]
    dsimp only
    rw [j1, ok_bind, j2, ok_bind, Nat.add_sub_cancel_left]
    have hpd := hp'.down
    rw [flatten_mid (β := Nest α L)] at hpd
    rw [elems_succ] at hd hc hne
    exact key c _ _ (v.push (L + 1) x) D D' hpd hd hl hne hc

theorem offs_map {β : Type} (A D B : List (List β)) (g : List β → List β) (hg : ∀ l, (g l).length = l.length) :
    offs (A ++ D.map g ++ B) = offs (A ++ D ++ B) := by
  have hlen : ∀ (l : List (List β)) (n : Nat), ((l.take n).flatten.length) = ((l.map List.length).take n).sum := by
    intro l n
    rw [List.length_flatten, List.map_take]
  unfold offs
  rw [show (A ++ D.map g ++ B).length = (A ++ D ++ B).length by simp]
  refine List.map_congr_left fun i _ => ?_
  rw [hlen, hlen]
  congr 2
  simp only [List.map_append, List.map_map]
  congr 2
  exact List.map_congr_left fun l _ => hg l

/-- The index tables do not depend on the values of the elements. -/
theorem offsAt_map (f : α → α) : (L : Nat) → (A D B : List (Nest α L)) → (k : Nat) →
    offsAt L (A ++ D.map (Nest.map f L) ++ B) k = offsAt L (A ++ D ++ B) k
  | 0, A, D, B, k => by
    simp only [offsAt]
    split
    · exact offs_map A D B (List.map f) (fun l => List.length_map ..)
    · rfl
  | L + 1, A, D, B, k => by
    simp only [offsAt]
    split
    · exact offs_map (β := Nest α L) A D B (List.map (Nest.map f L)) (fun l => List.length_map ..)
    · have e1 : List.flatten (α := Nest α L) (A ++ D.map (Nest.map f (L + 1)) ++ B) =
          List.flatten (α := Nest α L) A ++ (List.flatten (α := Nest α L) D).map (Nest.map f L) ++ List.flatten (α := Nest α L) B := by
        rw [List.flatten_append, List.flatten_append, List.map_flatten]
        rfl
      have e2 : List.flatten (α := Nest α L) (A ++ D ++ B) =
          List.flatten (α := Nest α L) A ++ List.flatten (α := Nest α L) D ++ List.flatten (α := Nest α L) B := by
        rw [List.flatten_append, List.flatten_append]
      rw [e1, e2]
      exact offsAt_map f L _ _ _ k

theorem Holds.own {W L : Nat} {v : NV α} {C : List (Nest α L)} (h : Holds L v C) {i : Nat} {c : Nest α L} (hi : C[i]? = some c)
    (hf : Fits W L (C ++ [c])) (moved : α → α) {cap : Nat}
    (hc : (C.map (Nest.elems L)).flatten.length + (Nest.elems L c).length ≤ cap ∨ Nest.elems L c = []) :
    ∃ w, emplaceBackOwn W cap L moved v i = .ok w ∧ Holds L w (C.set i (Nest.map moved L c) ++ [c]) := by
  obtain ⟨hil, rfl⟩ := List.getElem?_eq_some_iff.1 hi
  generalize hP : C.take i = P
  generalize hS : C.drop (i + 1) = S
  have hC : C = P ++ C[i] :: S := by rw [← hP, ← hS, ← List.drop_eq_getElem_cons hil, List.take_append_drop]
  have hPl : P.length = i := by rw [← hP, List.length_take]; omega
  generalize C[i] = c at *
  have hset : C.set i (Nest.map moved L c) = P ++ [Nest.map moved L c] ++ S := by
    rw [List.set_eq_take_append_cons_drop, if_pos hil, hP, hS]; simp
  have hpre : Pre L v (P ++ c :: S) := fun k hk => by rw [h.1 k hk, hC]; exact List.prefix_rfl
  have hd : v.data = dataOf L P ++ Nest.elems L c ++ dataOf L S := by
    rw [h.2, hC, dataOf_append, dataOf_cons, List.append_assoc]
  have hdl : v.data.length = (C.map (Nest.elems L)).flatten.length := by rw [h.2, dataOf_elems]
  have hok := addOwn_ok W cap moved L P S c v _ _ hpre hd rfl (by
    rcases hc with h | h
    · exact Or.inr (by rw [hdl]; exact h)
    · exact Or.inl h)
  have hadd := add_holds L C c v hf h
  have hok' : emplaceBackOwn W cap L moved v i = .ok ⟨dataOf L P ++ (Nest.elems L c).map moved ++ dataOf L S ++ Nest.elems L c,
      (add W L c v).index⟩ := by
    unfold emplaceBackOwn
    rw [if_neg (holds_ne h), ← hPl]
    exact hok
  refine ⟨_, hok', ?_⟩
  · refine ⟨fun k hk => ?_, ?_⟩
    · show (add W L c v).index k = _
      rw [hadd.1 k hk, hset]
      have := offsAt_map moved L P [c] (S ++ [c]) k
      rw [List.map_cons, List.map_nil, ← List.append_assoc, ← List.append_assoc] at this
      rw [this, hC]
      simp
    · show _ ++ _ ++ _ ++ _ = _
      rw [hset, dataOf_append, dataOf_append, dataOf_append, dataOf_single, dataOf_single, elems_map]

/-- Empty or holding `C`, with all counts in range. -/
theorem runCalls_ok {W L : Nat} {moved : α → α} (hm : ∀ x, moved x = x) : ∀ (ops : List (Call α L)) {v : NV α}
    {C : List (Nest α L)}, Inv L v C → CallsAllowed W L C ops →
    ∃ w, runCalls W L moved v ops = .ok w ∧ Inv L w (specCalls C ops) ∧ Fits W L (specCalls C ops)
  | [], v, C, h, ha => ⟨v, rfl, h, ha⟩
  | .other c :: ops, v, C, h, ⟨hf, ha⟩ => by
    have e : (emplaceBackFrom W L moved v c).1 = emplaceBack W L v c := by
      unfold emplaceBackFrom emplaceBack
      rw [addFrom_eq]
    obtain ⟨w, h1, h2, h3⟩ := runCalls_ok hm ops (Or.inr (emplaceBack_inv hf h)) ha
    refine ⟨w, ?_, h2, h3⟩
    show runCalls W L moved (emplaceBackFrom W L moved v c).1 ops = _
    rw [e]; exact h1
  | .own i cap :: ops, v, C, h, ⟨c, hi, hf, hc, ha⟩ => by
    rcases h with ⟨rfl, _⟩ | h
    · simp at hi
    · obtain ⟨w, h1, h2⟩ := h.own hi hf moved hc
      rw [map_fixed moved L c fun x _ => hm x] at h2
      obtain ⟨hil, hic⟩ := List.getElem?_eq_some_iff.1 hi
      rw [← hic, List.set_getElem_self, hic] at h2
      obtain ⟨w', g1, g2, g3⟩ := runCalls_ok hm ops (Or.inr h2) ha
      refine ⟨w', ?_, ?_, ?_⟩
      · show (do runCalls W L moved (← emplaceBackOwn W cap L moved v i) ops) = _
        rw [h1, ok_bind]; exact g1
      · show Inv L w' (specCalls (C ++ C[i]?.toList) ops)
        rw [hi]; exact g2
      · show Fits W L (specCalls (C ++ C[i]?.toList) ops)
        rw [hi]; exact g3

/-! ## C143 -/

/-- **C143 (partial)** Elements that moving does not change: after every sequence of calls of `emplace_back` with containers of
the caller and with own containers, the latter with enough room in `data_`, an nvec of any depth of at least two contains
exactly what it was given.  Missing: other elements (`C143_moved_out_violated`, `C143_own_moved_violated`) and own containers
without room (`C143_growth_violated`). -/
theorem C143_history_partial {W L : Nat} {moved : α → α} (hm : ∀ x, moved x = x) {ops : List (Call α (L + 1))}
    (ha : CallsAllowed W (L + 1) [] ops) :
    ∃ w, runCalls W (L + 1) moved .empty ops = .ok w ∧ w.size W (L + 1) = (specCalls [] ops).length ∧
      w.iterate W (L + 1) = .ok (specCalls [] ops) := by
  obtain ⟨w, h1, h2, h3⟩ := runCalls_ok hm ops (v := .empty) (Or.inl ⟨rfl, rfl, fun _ _ => rfl⟩) ha
  obtain ⟨r1, r2, _⟩ := read_inv h2 h3
  exact ⟨w, h1, r1, r2⟩

/-- **C143 (partial)** `nv.emplace_back(c)` appends `c` and leaves it as it was, if moving from its elements does not change
them. -/
theorem C143_argument_partial (W L : Nat) (moved : α → α) (v : NV α) (c : Nest α L)
    (hm : ∀ x ∈ Nest.elems L c, moved x = x) : emplaceBackFrom W L moved v c = (emplaceBack W L v c, c) := by
  unfold emplaceBackFrom emplaceBack
  rw [addFrom_eq, map_fixed moved L c hm]

/-- **C143 (violated)** `nv.emplace_back(c)` changes `c`, although it is not a temporary, if it contains, at any depth, an element
that is changed by moving from it. -/
theorem C143_moved_out_violated (W L : Nat) (moved : α → α) (v : NV α) (c : Nest α L) {x : α} (hx : x ∈ Nest.elems L c)
    (hm : moved x ≠ x) : (emplaceBackFrom W L moved v c).2 ≠ c := by
  unfold emplaceBackFrom
  rw [addFrom_eq]
  exact map_changed moved L c hx hm

/-- **C143 (violated)** With room `nv.emplace_back(nv[i])` appends container `i`, but afterwards container `i` has the elements
that were moved from. -/
theorem C143_own_moved_violated {W L : Nat} {C : List (Nest α (L + 1))} {i : Nat} {c : Nest α (L + 1)} (hi : C[i]? = some c)
    (hf : Fits W (L + 1) (C ++ [c])) (moved : α → α) {cap : Nat}
    (hc : (C.map (Nest.elems (L + 1))).flatten.length + (Nest.elems (L + 1) c).length ≤ cap)
    (hx : ∃ x ∈ Nest.elems (L + 1) c, moved x ≠ x) :
    ∃ w, emplaceBackOwn W cap (L + 1) moved (build W (L + 1) C) i = .ok w ∧ w.size W (L + 1) = C.length + 1 ∧
      w.toMeta (L + 1) C.length = .ok c ∧ w.toMeta (L + 1) i = .ok (Nest.map moved (L + 1) c) ∧
      Nest.map moved (L + 1) c ≠ c ∧ ∀ j, j ≠ i → ∀ d, C[j]? = some d → w.toMeta (L + 1) j = .ok d := by
  obtain ⟨x, hx, hmx⟩ := hx
  obtain ⟨hil, _⟩ := List.getElem?_eq_some_iff.1 hi
  have hb := build_inv C (fits_append (L + 1) C _ hf)
  rcases hb with ⟨rfl, _⟩ | hb
  · simp at hi
  obtain ⟨w, h1, h2⟩ := hb.own hi hf moved (Or.inl hc)
  have hlen := fits_len (L + 1) _ hf
  have hget : ∀ (j : Nat) (d : Nest α (L + 1)), (C.set i (Nest.map moved (L + 1) c) ++ [c])[j]? = some d →
      w.toMeta (L + 1) j = .ok d := by
    intro j d hj
    obtain ⟨hjl, rfl⟩ := List.getElem?_eq_some_iff.1 hj
    exact toNest_holds (L + 1) h2 hjl
  refine ⟨w, h1, ?_, hget _ _ ?_, hget _ _ ?_, map_changed moved (L + 1) c hx hmx, fun j hj d hd => hget _ _ ?_⟩
  · rw [size_inv (Or.inr h2) (by simpa using hlen)]; simp
  · rw [List.getElem?_append_right (by simp)]; simp
  · rw [List.getElem?_append_left (by simpa using hil), List.getElem?_set_self hil]
  · obtain ⟨hjl, _⟩ := List.getElem?_eq_some_iff.1 hd
    rw [List.getElem?_append_left (by simpa using hjl), List.getElem?_set_ne (fun h => hj h.symm)]
    exact hd

/-- **C143 (violated)** If `data_` has no room for the elements of container `i`, `nv.emplace_back(nv[i])` reads elements that have
been destroyed: undefined behaviour for every content and every depth of at least two. -/
theorem C143_growth_violated {W L : Nat} {C : List (Nest α (L + 1))} (hf : Fits W (L + 1) C) {i : Nat} {c : Nest α (L + 1)}
    (hi : C[i]? = some c) (hne : Nest.elems (L + 1) c ≠ []) (moved : α → α) {cap : Nat}
    (hc : cap < (C.map (Nest.elems (L + 1))).flatten.length + (Nest.elems (L + 1) c).length) :
    emplaceBackOwn W cap (L + 1) moved (build W (L + 1) C) i = .error .ub := by
  obtain ⟨hil, hci⟩ := List.getElem?_eq_some_iff.1 hi
  rcases build_inv C hf with ⟨rfl, _⟩ | h
  · simp at hi
  have hC : C = C.take i ++ c :: C.drop (i + 1) := by
    rw [← hci, ← List.drop_eq_getElem_cons hil, List.take_append_drop]
  have hPl : (C.take i).length = i := by rw [List.length_take]; omega
  generalize C.take i = P at *
  generalize C.drop (i + 1) = S at *
  generalize build W (L + 1) C = v at *
  unfold emplaceBackOwn
  rw [if_neg (holds_ne h)]
  have hpre : Pre (L + 1) v (P ++ c :: S) := fun k hk => by rw [h.1 k hk, hC]; exact List.prefix_rfl
  have := addOwn_ub W cap moved (L + 1) P S c v (dataOf (L + 1) P) (dataOf (L + 1) S) hpre
    (by rw [h.2, hC, dataOf_append, dataOf_cons, List.append_assoc]) rfl hne (by rw [h.2, dataOf_elems]; exact hc)
  rw [hPl] at this
  exact this

/-! ## Examples -/

/-- Two containers; then the first one again. -/
def ownCalls : List (Call (List Nat) 1) := [.other [[[1], [2, 3]], []], .other [[[4]]], .own 0 8]

example : CallsAllowed 32 1 [] ownCalls := by
  refine ⟨by simp [Fits], by simp [Fits], [[[1], [2, 3]], []], rfl, by simp [Fits], Or.inl (by decide), by simp [CallsAllowed, Fits]⟩

example : specCalls [] ownCalls = [[[[1], [2, 3]], []], [[[4]]], [[[1], [2, 3]], []]] := rfl

/-- Elements that stay as they are, strings that become empty, and a `data_` that is full. -/
example :
    (do (← runCalls 32 1 id .empty ownCalls).iterate 32 1) = .ok [[[[1], [2, 3]], []], [[[4]]], [[[1], [2, 3]], []]] ∧
    (do (← runCalls 32 1 (fun _ => []) .empty ownCalls).iterate 32 1) =
      .ok [[[[], []], []], [[[4]]], [[[1], [2, 3]], []]] ∧
    emplaceBackOwn 32 4 1 id (build 32 1 [[[[1], [2, 3]], []], [[[4]]]]) 0 = .error .ub := by
  refine ⟨by decide, by decide, ?_⟩
  exact C143_growth_violated (by simp [Fits]) (i := 0) rfl (by decide) id (by decide)

/-- `C143_argument_partial` and `C143_moved_out_violated`. -/
example : (emplaceBackFrom 32 1 id (.empty : NV (List Nat)) [[[7]], []]).2 = ([[[7]], []] : List (List (List Nat))) ∧
    (emplaceBackFrom 32 1 (fun _ => []) (.empty : NV (List Nat)) [[[7]], []]).2 = ([[[]], []] : List (List (List Nat))) := by
  decide

end Cista.Multi.NVec

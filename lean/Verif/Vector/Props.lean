import Verif.Vector.Ops

set_option linter.unusedSimpArgs false

/-!
# C09, C10, C50, C51 — vector
-/
namespace Cista.Vector

open Cista.Mem

variable {α : Type}

/-! ## Histories over a store of vectors -/

/-- Operations on vector variables (addressed by number). -/
inductive Op (α : Type) where
  /-- `push_back`, `emplace_back` -/
  | push (d : Nat) (a : α)
  | insertOne (d off : Nat) (a : α)
  | insertN (d off n : Nat) (a : α)
  /-- range insertion, single-pass iterators -/
  | insertInput (d off : Nat) (xs : List α)
  /-- range insertion, forward iterators -/
  | insertRange (d off : Nat) (xs : List α)
  | resize (d n : Nat) (a : α)
  | pop (d : Nat)
  | clear (d : Nat)
  | reserve (d n : Nat)
  | erase (d pos : Nat)
  | eraseRange (d i j : Nat)
  /-- `set(begin, end)` / construction from a range -/
  | set (d : Nat) (xs : List α)
  /-- `d = s`; copy construction is `destroy d` followed by this -/
  | copyAssign (d s : Nat)
  /-- `d = std::move(s)`; move construction is `destroy d` followed by this -/
  | moveAssign (d s : Nat)
  /-- `d[i] = a` -/
  | write (d i : Nat) (a : α)
  /-- destructor; the variable is default-constructed again -/
  | destroy (d : Nat)

/-- The heap and all vector variables. -/
structure State (α : Type) where
  h : Heap α
  vs : Nat → Vec

/-- Assign variable `d`. -/
def upd {β : Type} (m : Nat → β) (d : Nat) (v : β) : Nat → β := fun x => if x = d then v else m x

@[simp] theorem upd_same {β : Type} (m : Nat → β) (d : Nat) (v : β) : upd m d v d = v := by simp [upd]
theorem upd_ne {β : Type} (m : Nat → β) {d x : Nat} (v : β) (h : x ≠ d) : upd m d v x = m x := by
  simp [upd, h]

/-- Store a result. -/
def State.put (s : State α) (d : Nat) (r : Heap α × Vec) : State α := ⟨r.1, upd s.vs d r.2⟩

/-- Execute one operation. -/
def Op.exec (W : Nat) (strict : Bool) (s : State α) : Op α → Res (State α)
  | .push d a => (pushBack W strict s.h (s.vs d) a).map (s.put d)
  | .insertOne d off a => (Vector.insertOne W strict s.h (s.vs d) off a).map fun r => s.put d (r.1, r.2.1)
  | .insertN d off n a => (Vector.insertN W strict s.h (s.vs d) off n a).map fun r => s.put d (r.1, r.2.1)
  | .insertInput d off xs => (Vector.insertInput W strict s.h (s.vs d) off xs).map fun r => s.put d (r.1, r.2.1)
  | .insertRange d off xs => (Vector.insertRange W strict s.h (s.vs d) off xs).map fun r => s.put d (r.1, r.2.1)
  | .resize d n a => (Vector.resize W strict s.h (s.vs d) n a).map (s.put d)
  | .pop d => (popBack s.h (s.vs d)).map (s.put d)
  | .clear d => (Vector.clear s.h (s.vs d)).map (s.put d)
  | .reserve d n => (Vector.reserve W strict s.h (s.vs d) n).map (s.put d)
  | .erase d pos => (Vector.erase s.h (s.vs d) pos).map fun r => s.put d (r.1, r.2.1)
  | .eraseRange d i j => (Vector.eraseRange s.h (s.vs d) i j).map fun r => s.put d (r.1, r.2.1)
  | .set d xs => (Vector.set W strict s.h (s.vs d) xs).map (s.put d)
  | .copyAssign d x =>
    if d = x then .ok s else
      (toList s.h (s.vs x)).bind fun xs => (Vector.set W strict s.h (s.vs d) xs).map (s.put d)
  | .moveAssign d x => (deallocate strict s.h (s.vs d)).map fun r =>
      let vs1 := upd s.vs d r.2
      let vs2 := upd vs1 d (vs1 x)
      ⟨r.1, upd vs2 x Vec.empty⟩
  | .write d i a => (Vector.write s.h (s.vs d) i a).map fun h => s.put d (h, s.vs d)
  | .destroy d => (deallocate strict s.h (s.vs d)).map fun r => s.put d (r.1, Vec.empty)

/-- Run a history. -/
def run (W : Nat) (strict : Bool) : State α → List (Op α) → Res (State α)
  | s, [] => .ok s
  | s, op :: ops => (op.exec W strict s).bind fun s' => run W strict s' ops

/-! ## Specification: the same history on lists -/

/-- `xs` inserted before position `off`. -/
def specInsert (l : List α) (off : Nat) (xs : List α) : List α := l.take off ++ xs ++ l.drop off

/-- One operation on lists; `none` = a caller obligation is violated (position out of range, empty
vector) or a size would exceed half of the range of `size_type`. -/
def Op.spec (W : Nat) (m : Nat → List α) : Op α → Option (Nat → List α)
  | .push d a => if (m d).length + 1 ≤ 2 ^ (W - 1) then some (upd m d (m d ++ [a])) else none
  | .insertOne d off a => if off ≤ (m d).length ∧ (m d).length + 1 ≤ 2 ^ (W - 1) then
      some (upd m d (specInsert (m d) off [a])) else none
  | .insertN d off n a => if off ≤ (m d).length ∧ (m d).length + n ≤ 2 ^ (W - 1) then
      some (upd m d (specInsert (m d) off (List.replicate n a))) else none
  | .insertInput d off xs => if off ≤ (m d).length ∧ (m d).length + xs.length ≤ 2 ^ (W - 1) then
      some (upd m d (specInsert (m d) off xs)) else none
  | .insertRange d off xs => if off ≤ (m d).length ∧ (m d).length + xs.length ≤ 2 ^ (W - 1) then
      some (upd m d (specInsert (m d) off xs)) else none
  | .resize d n a => if n ≤ 2 ^ (W - 1) then
      some (upd m d ((m d).take n ++ List.replicate (n - (m d).length) a)) else none
  | .pop d => if m d = [] then none else some (upd m d (m d).dropLast)
  | .clear d => some (upd m d [])
  | .reserve _ n => if n ≤ 2 ^ (W - 1) then some m else none
  | .erase d pos => if pos < (m d).length then some (upd m d ((m d).eraseIdx pos)) else none
  | .eraseRange d i j => if i ≤ j ∧ j ≤ (m d).length then
      some (upd m d ((m d).take i ++ (m d).drop j)) else none
  | .set d xs => if xs.length ≤ 2 ^ (W - 1) then some (upd m d xs) else none
  | .copyAssign d s => if (m s).length ≤ 2 ^ (W - 1) then some (upd m d (m s)) else none
  | .moveAssign d s => some (upd (upd m d (m s)) s [])
  | .write d i a => if i < (m d).length then some (upd m d ((m d).set i a)) else none
  | .destroy d => some (upd m d [])

/-- A history on lists. -/
def specRun (W : Nat) : (Nat → List α) → List (Op α) → Option (Nat → List α)
  | m, [] => some m
  | m, op :: ops => (op.spec W m).bind fun m' => specRun W m' ops

/-- The operation is not a forward-range insertion of *nothing* in front of existing elements. -/
def Op.NoEmptyInsert (m : Nat → List α) : Op α → Prop
  | .insertRange d off xs => xs ≠ [] ∨ off = (m d).length
  | _ => True

/-- The operation does not shrink by `resize` and does not overwrite existing elements by
`set`/copy assignment. -/
def Op.NoOverwrite (m : Nat → List α) : Op α → Prop
  | .resize d n _ => (m d).length ≤ n
  | .set d _ => m d = []
  | .copyAssign d s => d = s ∨ m d = []
  | _ => True

/-- A condition on every operation of the history, evaluated on the lists at that point. -/
def Along (W : Nat) (P : (Nat → List α) → Op α → Prop) : (Nat → List α) → List (Op α) → Prop
  | _, [] => True
  | m, op :: ops => P m op ∧ ∀ m', op.spec W m = some m' → Along W P m' ops

/-! ## Invariant of the store -/

/-- The store `s` represents the lists `m`; `ext` = blocks of memory not owned by any vector (the
buffers of deserialized data). -/
structure WF (strict : Bool) (ext : Nat → Prop) (s : State α) (m : Nat → List α) : Prop where
  rep : ∀ x, Rep strict s.h (s.vs x) (m x)
  inj : ∀ x y b, (s.vs x).ptr = some b → (s.vs y).ptr = some b → x = y
  fresh : Fresh s.h
  owned : ∀ b, s.h.blocks b ≠ none → ext b ∨ ∃ x, (s.vs x).ptr = some b ∧ (s.vs x).self = true
  extLive : ∀ b, ext b → s.h.blocks b ≠ none
  extIff : ∀ x b, (s.vs x).ptr = some b → ((s.vs x).self = false ↔ ext b)

theorem Rep.frame {strict : Bool} {h h' : Heap α} {v : Vec} {l : List α} (r : Rep strict h v l)
    (hn : h.next ≤ h'.next) (hb : ∀ b, v.ptr = some b → h'.blocks b = h.blocks b) :
    Rep strict h' v l := by
  cases r with
  | null hv hl => exact .null hv hl
  | blk b rest hp hlt hs hu ha hr =>
    exact .blk b rest hp (Nat.lt_of_lt_of_le hlt hn) (by rw [hb b hp, hs]) hu ha hr

theorem WF.lift {strict : Bool} {ext : Nat → Prop} {s : State α} {m : Nat → List α}
    (w : WF strict ext s m) {d : Nat} {h' : Heap α} {v' : Vec} {l' : List α}
    (r : Rep strict h' v' l') (f : Frame s.h (s.vs d) h' v') :
    WF strict ext (s.put d (h', v')) (upd m d l') := by
  have hother : ∀ x b, x ≠ d → (s.vs x).ptr = some b → h'.blocks b = s.h.blocks b := by
    intro x b hx hb
    have hlt := ((w.rep x).good b hb).1
    refine f.other b hlt ?_
    intro e
    exact hx (w.inj x d b hb e)
  have hpd : ∀ x b, x ≠ d → (s.vs x).ptr = some b → v'.ptr ≠ some b := by
    intro x b hx hb e
    have hlt := ((w.rep x).good b hb).1
    rcases f.ptr with ⟨e2, _⟩ | e2 | ⟨c, hc, e2, _⟩
    · rw [e2] at e; exact hx (w.inj x d b hb e)
    · rw [e2] at e; cases e
    · rw [e2] at e; cases e; omega
  refine { rep := ?_, inj := ?_, fresh := f.fresh, owned := ?_, extLive := ?_, extIff := ?_ }
  · intro x
    simp only [State.put]
    by_cases hx : x = d
    · subst hx; simpa using r
    · rw [upd_ne _ _ hx, upd_ne _ _ hx]
      exact (w.rep x).frame f.next_le (fun b hb => hother x b hx hb)
  · intro x y b hx hy
    simp only [State.put] at hx hy
    by_cases hxd : x = d
    · by_cases hyd : y = d
      · rw [hxd, hyd]
      · subst hxd
        rw [upd_same] at hx; rw [upd_ne _ _ hyd] at hy
        exact absurd hx (hpd y b hyd hy)
    · by_cases hyd : y = d
      · subst hyd
        rw [upd_same] at hy; rw [upd_ne _ _ hxd] at hx
        exact absurd hy (hpd x b hxd hx)
      · rw [upd_ne _ _ hxd] at hx; rw [upd_ne _ _ hyd] at hy
        exact w.inj x y b hx hy
  · intro b hb
    simp only [State.put] at hb
    by_cases hlt : b < s.h.next
    · by_cases hp : (s.vs d).ptr = some b
      · by_cases hp' : v'.ptr = some b
        · have hs' : v'.self = (s.vs d).self := by
            rcases f.ptr with ⟨_, e⟩ | e | ⟨c, hc, e, _⟩
            · exact e
            · rw [e] at hp'; cases hp'
            · rw [e] at hp'; cases hp'; omega
          cases hself : (s.vs d).self with
          | false => exact Or.inl ((w.extIff d b hp).1 hself)
          | true => exact Or.inr ⟨d, by simp [State.put, hp', hs', hself]⟩
        · have := f.old b hp hp'
          cases hself : (s.vs d).self with
          | false => exact Or.inl ((w.extIff d b hp).1 hself)
          | true => exact absurd (this.2 hself) hb
      · rw [f.other b hlt hp] at hb
        rcases w.owned b hb with h | ⟨x, hx, hself⟩
        · exact Or.inl h
        · have hxd : x ≠ d := by intro e; rw [e] at hx; exact hp hx
          exact Or.inr ⟨x, by simp only [State.put]; rw [upd_ne _ _ hxd]; exact ⟨hx, hself⟩⟩
    · have hp' := f.new b (by omega) hb
      have hself : v'.self = true := by
        rcases f.ptr with ⟨e, _⟩ | e | ⟨c, hc, e, hs⟩
        · rw [e] at hp'
          have := (f.good0 b hp').1
          omega
        · rw [e] at hp'; cases hp'
        · exact hs
      exact Or.inr ⟨d, by simp [State.put, hp', hself]⟩
  · intro b hb
    simp only [State.put]
    have hne := w.extLive b hb
    have hlt : b < s.h.next := by
      by_cases h : b < s.h.next
      · exact h
      · exact absurd (w.fresh b (by omega)) hne
    by_cases hp : (s.vs d).ptr = some b
    · have hself := (w.extIff d b hp).2 hb
      by_cases hp' : v'.ptr = some b
      · exact (f.good b hp').2
      · have := f.old b hp hp'
        rw [hself] at this
        simpa using this
    · rw [f.other b hlt hp]; exact hne
  · intro x b hx
    simp only [State.put] at hx ⊢
    by_cases hxd : x = d
    · subst hxd
      rw [upd_same] at hx ⊢
      rcases f.ptr with ⟨e, e2⟩ | e | ⟨c, hc, e, hs⟩
      · rw [e2]; rw [e] at hx; exact w.extIff x b hx
      · rw [e] at hx; cases hx
      · rw [e] at hx
        have hcb : c = b := by injection hx
        subst hcb
        rw [hs]
        constructor
        · intro h; cases h
        · intro h
          exact absurd (w.fresh c hc) (w.extLive c h)
    · rw [upd_ne _ _ hxd] at hx ⊢
      exact w.extIff x b hx

/-- Moving the contents of variable `s` into the empty variable `d`. -/
theorem WF.move {strict : Bool} {ext : Nat → Prop} {h : Heap α} {vs : Nat → Vec} {m : Nat → List α}
    (w : WF strict ext ⟨h, vs⟩ m) {d s : Nat} (hd : vs d = Vec.empty) :
    WF strict ext ⟨h, upd (upd vs d (vs s)) s Vec.empty⟩ (upd (upd m d (m s)) s []) := by
  have key : ∀ x b, (upd (upd vs d (vs s)) s Vec.empty x).ptr = some b →
      x ≠ s ∧ ((x = d ∧ (vs s).ptr = some b ∧ upd (upd vs d (vs s)) s Vec.empty x = vs s) ∨
        (x ≠ d ∧ (vs x).ptr = some b ∧ upd (upd vs d (vs s)) s Vec.empty x = vs x)) := by
    intro x b hx
    by_cases hxs : x = s
    · subst hxs; rw [upd_same] at hx; cases hx
    · refine ⟨hxs, ?_⟩
      rw [upd_ne _ _ hxs] at hx
      by_cases hxd : x = d
      · subst hxd
        rw [upd_same] at hx
        exact Or.inl ⟨rfl, hx, by rw [upd_ne _ _ hxs, upd_same]⟩
      · rw [upd_ne _ _ hxd] at hx
        exact Or.inr ⟨hxd, hx, by rw [upd_ne _ _ hxs, upd_ne _ _ hxd]⟩
  refine { rep := ?_, inj := ?_, fresh := w.fresh, owned := ?_, extLive := w.extLive, extIff := ?_ }
  · intro x
    by_cases hxs : x = s
    · subst hxs; simp only [upd_same]; exact .null rfl rfl
    · simp only [upd_ne _ _ hxs]
      by_cases hxd : x = d
      · subst hxd; simp only [upd_same]; exact w.rep s
      · simp only [upd_ne _ _ hxd]; exact w.rep x
  · intro x y b hx hy
    obtain ⟨hxs, hx | hx⟩ := key x b hx
    · obtain ⟨hys, hy | hy⟩ := key y b hy
      · rw [hx.1, hy.1]
      · exact absurd (w.inj y s b hy.2.1 hx.2.1) hys
    · obtain ⟨hys, hy | hy⟩ := key y b hy
      · exact absurd (w.inj x s b hx.2.1 hy.2.1) hxs
      · exact w.inj x y b hx.2.1 hy.2.1
  · intro b hb
    rcases w.owned b hb with h | ⟨x, hx, hself⟩
    · exact Or.inl h
    · right
      simp only at hx hself
      by_cases hxs : x = s
      · subst hxs
        have hdx : d ≠ x := by
          intro e; rw [e] at hd; rw [hd] at hx; cases hx
        exact ⟨d, by simp only [upd_ne _ _ hdx, upd_same]; exact ⟨hx, hself⟩⟩
      · have hxd : x ≠ d := by intro e; rw [e, hd] at hx; cases hx
        exact ⟨x, by simp only [upd_ne _ _ hxs, upd_ne _ _ hxd]; exact ⟨hx, hself⟩⟩
  · intro x b hx
    obtain ⟨_, ⟨_, h2, h3⟩ | ⟨_, h2, h3⟩⟩ := key x b hx
    · simp only [h3]; exact w.extIff s b h2
    · simp only [h3]; exact w.extIff x b h2

theorem upd_upd {β : Type} (m : Nat → β) (d : Nat) (a b : β) : upd (upd m d a) d b = upd m d b := by
  funext x; simp only [upd]; split <;> rfl

theorem upd_self {β : Type} (m : Nat → β) (d : Nat) : upd m d (m d) = m := by
  funext x; simp only [upd]; split
  · next h => rw [h]
  · rfl

theorem exec_ok {W : Nat} (hW : Arith.StdWidth W) {strict : Bool} {ext : Nat → Prop} {s : State α}
    {m m' : Nat → List α} (w : WF strict ext s m) (op : Op α) (he : op.NoEmptyInsert m)
    (ho : strict = true → op.NoOverwrite m) (hs : op.spec W m = some m') :
    ∃ s', op.exec W strict s = .ok s' ∧ WF strict ext s' m' := by
  cases op with
  | push d a =>
    simp only [Op.spec] at hs
    split at hs
    · next hc =>
      cases hs
      obtain ⟨h', v', e, r, f⟩ := pushBack_ok (W := W) (w.rep d) w.fresh ⟨hW, hc⟩ a
      exact ⟨_, by simp only [Op.exec, e]; rfl, w.lift r f⟩
    · cases hs
  | insertOne d off a =>
    simp only [Op.spec] at hs
    split at hs
    · next hc =>
      cases hs
      obtain ⟨h', v', e, r, f⟩ := insertOne_ok (W := W) (w.rep d) w.fresh ⟨hW, hc.2⟩ hc.1 a
      exact ⟨_, by simp only [Op.exec, e]; rfl, w.lift r f⟩
    · cases hs
  | insertN d off n a =>
    simp only [Op.spec] at hs
    split at hs
    · next hc =>
      cases hs
      obtain ⟨h', v', e, r, f⟩ := insertN_ok (W := W) (w.rep d) w.fresh ⟨hW, hc.2⟩ hc.1 a
      exact ⟨_, by simp only [Op.exec, e]; rfl, w.lift r f⟩
    · cases hs
  | insertInput d off xs =>
    simp only [Op.spec] at hs
    split at hs
    · next hc =>
      cases hs
      obtain ⟨h', v', e, r, f⟩ := insertInput_ok (W := W) (w.rep d) w.fresh ⟨hW, hc.2⟩ hc.1
      exact ⟨_, by simp only [Op.exec, e]; rfl, w.lift r f⟩
    · cases hs
  | insertRange d off xs =>
    simp only [Op.spec] at hs
    split at hs
    · next hc =>
      cases hs
      obtain ⟨h', v', e, r, f⟩ := insertRange_ok (W := W) (w.rep d) w.fresh ⟨hW, hc.2⟩ hc.1 he
      exact ⟨_, by simp only [Op.exec, e]; rfl, w.lift r f⟩
    · cases hs
  | resize d n a =>
    simp only [Op.spec] at hs
    split at hs
    · next hc =>
      cases hs
      obtain ⟨h', v', e, r, f⟩ := resize_ok (W := W) (w.rep d) w.fresh ⟨hW, hc⟩ ho a
      exact ⟨_, by simp only [Op.exec, e]; rfl, w.lift r f⟩
    · cases hs
  | pop d =>
    simp only [Op.spec] at hs
    split at hs
    · cases hs
    · next hc =>
      cases hs
      obtain ⟨h', v', e, r, f⟩ := popBack_ok (w.rep d) w.fresh hc
      exact ⟨_, by simp only [Op.exec, e]; rfl, w.lift r f⟩
  | clear d =>
    cases hs
    obtain ⟨h', v', e, r, f⟩ := clear_ok (w.rep d) w.fresh
    exact ⟨_, by simp only [Op.exec, e]; rfl, w.lift r f⟩
  | reserve d n =>
    simp only [Op.spec] at hs
    split at hs
    · next hc =>
      cases hs
      obtain ⟨h', v', e, r, _, _, f⟩ := reserve_ok (W := W) (w.rep d) w.fresh ⟨hW, hc⟩
      refine ⟨_, by simp only [Op.exec, e]; rfl, ?_⟩
      have := w.lift r f
      rwa [upd_self] at this
    · cases hs
  | erase d pos =>
    simp only [Op.spec] at hs
    split at hs
    · next hc =>
      cases hs
      obtain ⟨h', v', e, r, f⟩ := erase_ok (w.rep d) w.fresh hc
      refine ⟨_, by simp only [Op.exec, e]; rfl, ?_⟩
      rw [List.eraseIdx_eq_take_drop_succ]
      exact w.lift r f
    · cases hs
  | eraseRange d i j =>
    simp only [Op.spec] at hs
    split at hs
    · next hc =>
      cases hs
      obtain ⟨h', v', e, r, f⟩ := eraseRange_ok (w.rep d) w.fresh hc.1 hc.2
      exact ⟨_, by simp only [Op.exec, e]; rfl, w.lift r f⟩
    · cases hs
  | set d xs =>
    simp only [Op.spec] at hs
    split at hs
    · next hc =>
      cases hs
      obtain ⟨h', v', e, r, f⟩ := set_ok (W := W) (w.rep d) w.fresh ⟨hW, hc⟩ ho
      exact ⟨_, by simp only [Op.exec, e]; rfl, w.lift r f⟩
    · cases hs
  | copyAssign d x =>
    simp only [Op.spec] at hs
    split at hs
    · next hc =>
      cases hs
      simp only [Op.exec]
      split
      · next e => subst e; exact ⟨s, rfl, by rw [upd_self]; exact w⟩
      · next hne =>
        obtain ⟨h', v', e, r, f⟩ := set_ok (W := W) (w.rep d) w.fresh (xs := m x) ⟨hW, hc⟩
          (fun e => (ho e).resolve_left hne)
        rw [toList_ok (w.rep x)]
        exact ⟨_, by simp only [Except.bind, e]; rfl, w.lift r f⟩
    · cases hs
  | moveAssign d x =>
    cases hs
    obtain ⟨h', v', e, f⟩ := deallocate_ok (w.rep d) w.fresh
    simp only [Op.exec, e]
    refine ⟨_, rfl, ?_⟩
    have w1 := w.lift (l' := []) (.null rfl rfl) f
    simp only [State.put] at w1
    have w2 := w1.move (d := d) (s := x) (by simp)
    by_cases hdx : d = x
    · subst hdx
      simp only [upd_upd, upd_same] at w2 ⊢
      exact w2
    · have hxd : x ≠ d := fun h => hdx h.symm
      simp only [upd_ne _ _ hxd, upd_upd] at w2 ⊢
      exact w2
  | write d i a =>
    simp only [Op.spec] at hs
    split at hs
    · next hc =>
      cases hs
      obtain ⟨h', e, r, f⟩ := write_ok (w.rep d) w.fresh hc a
      exact ⟨_, by simp only [Op.exec, e]; rfl, w.lift r f⟩
    · cases hs
  | destroy d =>
    cases hs
    obtain ⟨h', v', e, f⟩ := deallocate_ok (w.rep d) w.fresh
    exact ⟨_, by simp only [Op.exec, e]; rfl, w.lift (l' := []) (.null rfl rfl) f⟩

theorem run_ok {W : Nat} (hW : Arith.StdWidth W) {strict : Bool} {ext : Nat → Prop} (ops : List (Op α))
    {s : State α} {m m' : Nat → List α} (w : WF strict ext s m)
    (he : Along W (fun m op => op.NoEmptyInsert m) m ops)
    (ho : strict = true → Along W (fun m op => op.NoOverwrite m) m ops)
    (hs : specRun W m ops = some m') :
    ∃ s', run W strict s ops = .ok s' ∧ WF strict ext s' m' := by
  induction ops generalizing s m with
  | nil => cases hs; exact ⟨s, rfl, w⟩
  | cons op ops ih =>
    simp only [specRun] at hs
    cases h1 : op.spec W m with
    | none => rw [h1] at hs; cases hs
    | some m1 =>
      rw [h1] at hs
      obtain ⟨s1, e1, w1⟩ := exec_ok hW w op he.1 (fun e => (ho e).1) h1
      obtain ⟨s2, e2, w2⟩ := ih w1 (he.2 m1 h1) (fun e => (ho e).2 m1 h1) hs
      exact ⟨s2, by simp [run, e1, e2, Except.bind], w2⟩

/-- All variables default-constructed, empty heap. -/
def State.empty : State α := ⟨Heap.empty, fun _ => Vec.empty⟩

theorem wf_empty (strict : Bool) : WF strict (fun _ => False) (State.empty (α := α)) (fun _ => []) where
  rep := fun _ => .null rfl rfl
  inj := by intro x y b h; cases h
  fresh := fun _ _ => rfl
  owned := by intro b h; exact absurd rfl h
  extLive := by intro b h; cases h
  extIff := by intro x b h; cases h

/-! ## C09 -/

/-- `a` is lexicographically smaller than `b` for the element order `lt` (stated by positions). -/
def LexLess (lt : α → α → Bool) (a b : List α) : Prop :=
  ∃ k, k ≤ a.length ∧ k < b.length ∧
    (∀ j x y, j < k → a[j]? = some x → b[j]? = some y → lt x y = false ∧ lt y x = false) ∧
    (k = a.length ∨ ∃ x y, a[k]? = some x ∧ b[k]? = some y ∧ lt x y = true)

theorem lexLt_iff (lt : α → α → Bool) (hirr : ∀ x y, lt x y = true → lt y x = false) (a b : List α) :
    lexLt lt a b = true ↔ LexLess lt a b := by
  induction a generalizing b with
  | nil =>
    cases b with
    | nil => simp [lexLt, LexLess]
    | cons y b =>
      simp only [lexLt, true_iff]
      exact ⟨0, by simp, by simp, by intro j x y hj; omega, Or.inl rfl⟩
  | cons x a ih =>
    cases b with
    | nil => simp [lexLt, LexLess]
    | cons y b =>
      simp only [lexLt]
      by_cases h1 : lt x y = true
      · rw [if_pos h1]
        simp only [true_iff]
        exact ⟨0, by simp, by simp, by intro j x y hj; omega, Or.inr ⟨x, y, by simp, by simp, h1⟩⟩
      · rw [if_neg h1]
        by_cases h2 : lt y x = true
        · rw [if_pos h2]
          constructor
          · intro h; cases h
          · rintro ⟨k, hk, hk2, hj, hl⟩
            cases k with
            | zero =>
              rcases hl with hl | ⟨x', y', hx', hy', hl⟩
              · simp at hl
              · simp at hx' hy'; subst hx'; subst hy'; exact absurd hl h1
            | succ k =>
              have := (hj 0 x y (by omega) (by simp) (by simp)).2
              rw [this] at h2; cases h2
        · rw [if_neg h2, ih]
          constructor
          · rintro ⟨k, hk, hk2, hj, hl⟩
            refine ⟨k + 1, by simp; omega, by simp; omega, ?_, ?_⟩
            · intro j x' y' hjk hx' hy'
              cases j with
              | zero => simp at hx' hy'; subst hx'; subst hy'; simp [h1, h2]
              | succ j => exact hj j x' y' (by omega) (by simpa using hx') (by simpa using hy')
            · rcases hl with hl | ⟨x', y', hx', hy', hl⟩
              · left; simp [hl]
              · right; exact ⟨x', y', by simpa using hx', by simpa using hy', hl⟩
          · rintro ⟨k, hk, hk2, hj, hl⟩
            cases k with
            | zero =>
              exfalso
              rcases hl with hl | ⟨x', y', hx', hy', hl⟩
              · simp at hl
              · simp at hx' hy'; subst hx'; subst hy'; exact h1 hl
            | succ k =>
              refine ⟨k, by simp at hk; omega, by simp at hk2; omega, ?_, ?_⟩
              · intro j x' y' hjk hx' hy'
                exact hj (j + 1) x' y' (by omega) (by simpa using hx') (by simpa using hy')
              · rcases hl with hl | ⟨x', y', hx', hy', hl⟩
                · left; simp at hl; exact hl
                · right; exact ⟨x', y', by simpa using hx', by simpa using hy', hl⟩

/-- What the observers must report for a vector holding `l`. -/
structure Observes [DecidableEq α] (s : State α) (m : Nat → List α) (x : Nat) : Prop where
  size : (s.vs x).used = (m x).length
  elems : toList s.h (s.vs x) = .ok (m x)
  index : ∀ i (hi : i < (m x).length), index s.h (s.vs x) i = .ok (m x)[i]
  atIn : ∀ i (hi : i < (m x).length), at' s.h (s.vs x) i = .ok (m x)[i]
  atOut : ∀ i, (m x).length ≤ i → at' s.h (s.vs x) i = .error .exn
  front : ∀ (hne : m x ≠ []), front s.h (s.vs x) = .ok ((m x).head hne)
  back : ∀ (hne : m x ≠ []), back s.h (s.vs x) = .ok ((m x).getLast hne)
  eq : ∀ y, eq s.h (s.vs x) (s.vs y) = .ok (decide (m x = m y))
  lt : ∀ (ltα : α → α → Bool), (∀ a b, ltα a b = true → ltα b a = false) →
    ∀ y, ∃ r, lt ltα s.h (s.vs x) (s.vs y) = .ok r ∧ (r = true ↔ LexLess ltα (m x) (m y))

theorem observes [DecidableEq α] {strict : Bool} {ext : Nat → Prop} {s : State α} {m : Nat → List α}
    (w : WF strict ext s m) (x : Nat) : Observes s m x where
  size := (w.rep x).used
  elems := toList_ok (w.rep x)
  index := fun i hi => index_ok (w.rep x) hi
  atIn := by
    intro i hi
    unfold at'
    rw [if_neg (by rw [(w.rep x).used]; omega)]
    exact index_ok (w.rep x) hi
  atOut := by
    intro i hi
    unfold at'
    rw [if_pos (by rw [(w.rep x).used]; exact hi)]
  front := by
    intro hne
    have hl : 0 < (m x).length := List.length_pos_iff.2 hne
    have := index_ok (w.rep x) hl
    unfold Vector.index at this
    unfold Vector.front
    have h1 : ¬ (s.vs x).used = 0 := by rw [(w.rep x).used]; omega
    have h2 : 0 < (s.vs x).used := by omega
    simp only [h2, h1, ne_eq, not_false_eq_true, decide_true] at this ⊢
    rw [List.head_eq_getElem]
    exact this
  back := by
    intro hne
    have hl : 0 < (m x).length := List.length_pos_iff.2 hne
    have := index_ok (w.rep x) (i := (m x).length - 1) (by omega)
    unfold Vector.index at this
    unfold Vector.back
    have h1 : ¬ (s.vs x).used = 0 := by rw [(w.rep x).used]; omega
    have h2 : (m x).length - 1 < (m x).length := by omega
    simp only [h1, ne_eq, not_false_eq_true, decide_true] at this ⊢
    rw [(w.rep x).used] at this ⊢
    simp only [h2, decide_true] at this
    rw [List.getLast_eq_getElem]
    exact this
  eq := by
    intro y
    simp only [Vector.eq, toList_ok (w.rep x), toList_ok (w.rep y), bind, Except.bind, pure, Except.pure]
  lt := by
    intro ltα hirr y
    exact ⟨lexLt ltα (m x) (m y),
      by simp only [Vector.lt, toList_ok (w.rep x), toList_ok (w.rep y), bind, Except.bind, pure, Except.pure],
      lexLt_iff ltα hirr _ _⟩

/-- **C09 (partial)** Every history over any number of vectors — starting from default-constructed
ones — has no undefined behaviour and leaves every vector with exactly the elements the same history
produces on lists, and all observers report them; provided the caller's obligations hold, sizes stay
within half of the range of `size_type`, and no empty forward range is inserted in front of existing
elements.  Missing for the full claim: the last two exclusions, where the claim is false
(`C09_half_range_violated`, `C09_insert_empty_range_violated`). -/
theorem C09_history_partial [DecidableEq α] {W : Nat} (hW : Arith.StdWidth W) (ops : List (Op α))
    (m : Nat → List α) (he : Along W (fun m op => op.NoEmptyInsert m) (fun _ => []) ops)
    (hs : specRun W (fun _ => []) ops = some m) :
    ∃ s, run W false State.empty ops = .ok s ∧ ∀ x, Observes s m x := by
  obtain ⟨s, e, w⟩ := run_ok hW ops (wf_empty false) he (by intro h; cases h) hs
  exact ⟨s, e, fun x => observes w x⟩

/-- **C09 (partial)** The same starting from *deserialized* vectors, i.e. vectors whose elements live
in buffers `ext` they do not own; additionally those buffers are never released, and every other
allocation is owned by exactly one vector at the end (so nothing is leaked or freed twice). -/
theorem C09_history_deserialized_partial [DecidableEq α] {W : Nat} (hW : Arith.StdWidth W)
    (ext : Nat → Prop) (s0 : State α) (m0 m : Nat → List α) (w0 : WF false ext s0 m0) (ops : List (Op α))
    (he : Along W (fun m op => op.NoEmptyInsert m) m0 ops) (hs : specRun W m0 ops = some m) :
    ∃ s, run W false s0 ops = .ok s ∧ (∀ x, Observes s m x) ∧
      (∀ b, ext b → s.h.blocks b ≠ none) ∧
      (∀ b, s.h.blocks b ≠ none → ext b ∨ ∃ x, (s.vs x).ptr = some b ∧
        ∀ y, (s.vs y).ptr = some b → y = x) := by
  obtain ⟨s, e, w⟩ := run_ok hW ops w0 he (by intro h; cases h) hs
  refine ⟨s, e, fun x => observes w x, w.extLive, ?_⟩
  intro b hb
  rcases w.owned b hb with h | ⟨x, hx, _⟩
  · exact Or.inl h
  · exact Or.inr ⟨x, hx, fun y hy => w.inj y x b hy hx⟩

/-- Non-vacuity (C09): a history with growth, all insertions, erasures, copies and moves. -/
example : ∃ m, specRun 32 (fun _ => [])
    [.push 0 1, .push 0 2, .insertOne 0 1 7, .insertRange 0 1 [8, 9], .insertN 0 5 2 4, .copyAssign 1 0,
     .erase 1 0, .eraseRange 1 1 3, .moveAssign 2 1, .resize 0 2 0, .insertInput 2 0 [5], .pop 2,
     .write 0 0 3, .destroy 0] = some m ∧
    m 0 = ([] : List Nat) ∧ m 1 = [] ∧ m 2 = [5, 8, 2, 4] := ⟨_, rfl, by decide, by decide, by decide⟩

/-- Non-vacuity (C09, deserialized): one vector of two elements in a foreign buffer. -/
example : WF (α := Nat) false (fun b => b = 0)
    ⟨⟨fun b => if b = 0 then some [.val 5, .val 6] else none, 1⟩,
     fun x => if x = 3 then ⟨some 0, 2, 2, false⟩ else Vec.empty⟩
    (fun x => if x = 3 then [5, 6] else []) where
  rep := by
    intro x
    simp only
    split
    · exact .blk 0 [] rfl (by simp) rfl rfl rfl (by simp)
    · exact .null rfl rfl
  inj := by
    intro x y b hx hy
    simp only at hx hy
    split at hx
    · split at hy
      · omega
      · cases hy
    · cases hx
  fresh := by
    intro b hb
    simp only at hb ⊢
    rw [if_neg (by omega)]
  owned := by
    intro b hb
    simp only at hb
    split at hb
    · exact Or.inl ‹_›
    · exact absurd rfl hb
  extLive := by intro b hb; simp [hb]
  extIff := by
    intro x b hx
    simp only at hx ⊢
    split at hx
    · next h => cases hx; simp [h]
    · cases hx

/-- **C09 violated** A vector holding `2^(W-1)` elements at full capacity cannot be extended: the new
capacity wraps to 0 and `push_back` writes outside the new allocation.  (For a `vector_map` with an
8-bit key this happens at the 129th element.) -/
theorem C09_half_range_violated {W : Nat} (hW : Arith.StdWidth W) (h : Heap α) (v : Vec) (l : List α)
    (r : Rep false h v l) (hl : l.length = 2 ^ (W - 1)) (hfull : v.alloc = l.length) (a : α) :
    pushBack W false h v a = .error .ub := by
  have hW1 : 1 < W := by rcases hW with h | h | h | h <;> omega
  have hpow : (2:Nat) ^ W = 2 * 2 ^ (W - 1) := by
    rw [show W = (W - 1) + 1 by omega, Nat.pow_succ]; simp; omega
  have hp1 : 1 < 2 ^ (W - 1) := Nat.one_lt_two_pow (by omega)
  obtain ⟨b, rest, hp, hb, hs, hu, ha, hr⟩ := r.toBlk (by omega)
  have hmod : (v.used + 1) % 2 ^ W = l.length + 1 := by
    rw [hu]; exact Nat.mod_eq_of_lt (by omega)
  have hz : Arith.nextPow2 (BitVec.ofNat W (l.length + 1)) = 0#W := by
    apply Arith.C01_next_power_of_two_zero hW
    right
    rw [BitVec.toNat_ofNat, Nat.mod_eq_of_lt (by omega)]; omega
  unfold pushBack reserve
  simp only [hmod]
  rw [show max v.alloc (l.length + 1) = l.length + 1 by omega, if_neg (by omega), hz]
  have hne : b ≠ h.next := by omega
  -- the very first move into the zero-sized block fails
  have hloop : ∀ n, 0 < n → n ≤ l.length → ∀ H : Heap α,
      H.blocks b = some (vals l ++ rest) → H.blocks h.next = some [] →
      moveLoop false b h.next n H = .error .ub := by
    intro n
    induction n with
    | zero => intro h; omega
    | succ n ih =>
      intro _ hn H h1 h2
      simp only [moveLoop]
      by_cases hn0 : n = 0
      · subst hn0
        obtain ⟨x, l', rfl⟩ : ∃ x l', l = x :: l' := by
          cases l with
          | nil => simp at hn
          | cons x l' => exact ⟨x, l', rfl⟩
        simp only [moveLoop, bind, Except.bind]
        rw [moveOut_at (p := []) (a := x) (q := vals l' ++ rest) (i := 0) (by rw [h1]; rfl) rfl]
        simp only []
        have : (H.setBlk b (some ([] ++ Slot.moved :: (vals l' ++ rest)))).blocks h.next = some [] := by
          rw [setBlk_blocks, if_neg (Ne.symm hne), h2]
        simp [Heap.construct, Heap.get, this, bind, Except.bind, Ne.symm hne, h2]
      · rw [ih (by omega) (by omega) H h1 h2]; rfl
  simp only [Heap.alloc, BitVec.toNat_zero, List.replicate_zero, migrate, bind, Except.bind]
  rw [if_neg (by omega)]
  simp only [Vec.base, hp]
  rw [hloop v.used (by omega) (by omega) _ (by simp [hne, hs]) (by simp)]

/-- Non-vacuity: such vectors exist, here with an 8-bit size type. -/
example : Rep (α := Nat) false ⟨fun b => if b = 0 then some (vals (List.replicate 128 7)) else none, 1⟩
    ⟨some 0, 128, 128, true⟩ (List.replicate 128 7) :=
  .blk 0 [] rfl (by simp) (by simp) (by simp) (by simp) (by simp)

theorem shiftTail_self {strict : Bool} {h : Heap α} {b : Nat} {A T : List α} {Q : List (Slot α)}
    (hs : h.blocks b = some (vals (A ++ T) ++ Q)) {used : Nat} (hu : used = A.length + T.length) (n : Nat) (hn : n ≤ T.length) :
    shiftTail strict b used 0 n h = .ok (h.setBlk b (some (vals (A ++ T.take (T.length - n)) ++ (List.replicate n .moved ++ Q)))) := by
  induction n with
  | zero =>
    rw [shiftTail, Nat.sub_zero, List.take_length, List.replicate_zero, List.nil_append, setBlk_self _ hs]
  | succ n ih =>
    have hlt : T.length - (n + 1) < T.length := by omega
    have ht : T.take (T.length - n) = T.take (T.length - (n + 1)) ++ [T[T.length - (n + 1)]] := by
      rw [show T.length - n = T.length - (n + 1) + 1 by omega, List.take_succ_eq_append_getElem hlt]
    have hb : (h.setBlk b (some (vals (A ++ T.take (T.length - n)) ++ (List.replicate n .moved ++ Q)))).blocks b =
        some (vals (A ++ T.take (T.length - (n + 1))) ++ .val T[T.length - (n + 1)] :: (List.replicate n .moved ++ Q)) := by
      rw [setBlk_blocks, if_pos rfl, ht]
      simp only [vals, List.map_append, List.map_cons, List.map_nil, List.append_assoc, List.cons_append, List.nil_append]
    rw [shiftTail, ih (by omega), ok_bind, shiftStep, if_neg (by omega), moveAssign,
      moveOut_at hb (by simp [vals]; omega), ok_bind]
    simp only [Nat.add_zero, if_true, setBlk_setBlk, List.replicate_succ, List.cons_append]

/-- **C09 violated** Inserting an *empty* forward range in front of existing elements move-assigns
every following element onto itself; the elements are in a moved-from state afterwards (a nested
`cista::vector` becomes empty), so their values are gone; for every vector and position. -/
theorem C09_insert_empty_range_violated {W : Nat} {strict : Bool} (h : Heap α) (v : Vec) (l : List α)
    (r : Rep strict h v l) (hlim : l.length < 2 ^ W) (off : Nat) (ho : off < l.length) :
    ∃ h' v', insertRange W strict h v off [] = .ok (h', v', off) ∧ v'.used = l.length ∧
      (∀ i, off ≤ i → i < l.length → index h' v' i = .error .ub) ∧ ∀ i, (hi : i < off) → index h' v' i = .ok l[i] := by
  obtain ⟨b, rest, hp, hlt, hs, hu, ha, hr⟩ := r.toBlk (Or.inr (by
    cases r with
    | null hv hl => subst hl; simp at ho
    | blk b rest hp hb hs hu ha hr => omega))
  have hpow : 0 < 2 ^ W := Nat.pow_pos (by decide)
  have hfit : reserve W strict h v ((v.used + 0) % 2 ^ W) = .ok (h, v) := by
    unfold reserve
    simp only []
    rw [Nat.add_zero, Nat.mod_eq_of_lt (by omega), if_pos (by omega)]
  have hl : l.take off ++ l.drop off = l := List.take_append_drop off l
  have hsh := shiftTail_self (strict := strict) (A := l.take off) (T := l.drop off) (Q := rest) (b := b) (h := h) (by rw [hl, hs])
    (used := v.used) (by simp; omega) (v.used - off) (by simp; omega)
  rw [show (l.drop off).length - (v.used - off) = 0 by simp; omega, List.take_zero, List.append_nil] at hsh
  have hins : insertRange W strict h v off [] = .ok (h.setBlk b (some (vals (l.take off) ++ (List.replicate (v.used - off) .moved ++ rest))),
      v, off) := by
    unfold insertRange
    rw [decide_eq_true (show off ≤ v.used by omega), require_true, ok_bind, if_neg (by omega)]
    simp only [List.length_nil, Nat.zero_mod]
    rw [hfit, ok_bind]
    simp only [Vec.base, hp]
    rw [ok_bind, hsh, ok_bind, writeNew, ok_bind, Nat.add_zero, Nat.mod_eq_of_lt (by omega), ← hp]
    rfl
  refine ⟨_, _, hins, hu, ?_, ?_⟩
  · intro i h1 h2
    unfold index
    rw [decide_eq_true (show i < v.used by omega), require_true, ok_bind]
    simp only [Vec.base, hp]
    rw [ok_bind]
    have hg : (vals (l.take off) ++ (List.replicate (v.used - off) Slot.moved ++ rest))[i]? = some .moved := by
      rw [List.getElem?_append_right (by simp [vals]; omega), List.getElem?_append_left (by simp [vals]; omega),
        List.getElem?_replicate, if_pos (by simp [vals]; omega)]
    simp only [Heap.read, Heap.get, setBlk_blocks, if_true, hg]
    rfl
  · intro i hi
    unfold index
    rw [decide_eq_true (show i < v.used by omega), require_true, ok_bind]
    simp only [Vec.base, hp]
    rw [ok_bind]
    have hg : (vals (l.take off) ++ (List.replicate (v.used - off) Slot.moved ++ rest))[i]? = some (.val l[i]) := by
      rw [List.getElem?_append_left (by simp [vals]; omega)]
      simp [vals, hi, List.getElem?_eq_getElem (show i < l.length by omega)]
    simp only [Heap.read, Heap.get, setBlk_blocks, if_true, hg]
    rfl

example : (run 32 false State.empty [.push 0 1, .push 0 2, .insertRange 0 1 []] >>= fun s =>
      toList s.h (s.vs 0)) = (.error .ub : Res (List Nat)) ∧
    specRun 32 (fun _ => []) [.push 0 1, .push 0 2, .insertRange 0 1 []] =
      some (upd (upd (upd (fun _ => []) 0 [1]) 0 [1, 2]) 0 [1, 2]) := by
  exact ⟨by decide +kernel, rfl⟩

/-! ## C10 -/

/-- **C10 (partial)** With spare capacity, `push_back`/`emplace_back`/`insert` of a reference to the
vector's own element `j` behave as with an independent copy.  Missing: the case of a full vector,
where it is undefined (`C10_growth_violated`). -/
theorem C10_spare_capacity_partial {W : Nat} (hW : Arith.StdWidth W) {strict : Bool} (h : Heap α)
    (v : Vec) (l : List α) (r : Rep strict h v l) (hlim : l.length + 1 ≤ 2 ^ (W - 1))
    (hcap : l.length + 1 ≤ v.alloc) (b j : Nat) (hb : v.ptr = some b) (hj : j < l.length) :
    pushBackRef W strict h v b j = pushBack W strict h v l[j] ∧
    ∀ off, insertOneRef W strict h v off b j = insertOne W strict h v off l[j] := by
  have hl : Lim W (l.length + 1) := ⟨hW, hlim⟩
  have h1 : pushBackRef W strict h v b j = pushBack W strict h v l[j] := by
    obtain ⟨b', rest, hp, hlt, hs, hu, ha, hr⟩ := r.toBlk (by omega)
    rw [hb] at hp; cases hp
    unfold pushBackRef pushBack
    have hres : reserve W strict h v ((v.used + 1) % 2 ^ W) = .ok (h, v) := by
      unfold reserve
      rw [r.used, hl.mod]
      simp only []
      rw [if_pos (by omega)]
    rw [hres]
    simp only [bind, Except.bind, Vec.base, hb, read_elem hs hj]
  refine ⟨h1, fun off => ?_⟩
  unfold insertOneRef insertOne
  rw [h1]

/-- **C10 violated** For *every* full vector and every own element, `push_back(v[j])`,
`emplace_back(v[j])` and `insert(pos, v[j])` read the element after it was destroyed (and, for owning
vectors, its memory released): undefined behaviour. -/
theorem C10_growth_violated {W : Nat} (hW : Arith.StdWidth W) {strict : Bool} (h : Heap α) (v : Vec)
    (l : List α) (r : Rep strict h v l) (hf : Fresh h) (hlim : l.length + 1 ≤ 2 ^ (W - 1))
    (hfull : v.alloc = l.length) (b j : Nat) (hb : v.ptr = some b) (hj : j < l.length) :
    pushBackRef W strict h v b j = .error .ub ∧
    ∀ off, off ≤ l.length → insertOneRef W strict h v off b j = .error .ub := by
  have hl : Lim W (l.length + 1) := ⟨hW, hlim⟩
  have h1 : pushBackRef W strict h v b j = .error .ub := by
    obtain ⟨b', rest, hp, hlt, hs, hu, ha, hr⟩ := r.toBlk (by omega)
    rw [hb] at hp; cases hp
    have hrest : rest = [] := List.length_eq_zero_iff.1 (by omega)
    subst hrest
    unfold pushBackRef
    rw [hu, hl.mod]
    unfold reserve
    simp only []
    rw [show max v.alloc (l.length + 1) = l.length + 1 by omega, if_neg (by omega)]
    have hge := nextPow2_ge hl (by omega)
    generalize (Arith.nextPow2 (BitVec.ofNat W (l.length + 1))).toNat = nx at hge
    have hne : b ≠ h.next := by omega
    simp only [Heap.alloc, migrate, bind, Except.bind]
    rw [if_neg (by omega)]
    simp only [Vec.base, hb, hu]
    rw [moveLoop_ok hne (l := l) (rest := []) (tail := []) l.length (Nat.le_refl _) nx (by omega)
      (by simp [hne, hs]) (by simp)]
    simp only []
    rw [destroyLoop_ok (lo := 0) (p := []) (q := []) (List.replicate l.length .moved) rfl
      (by intro s hs; rw [(List.mem_replicate.1 hs).2]; rfl)
      (by simp [hne]) l.length (by simp)]
    simp only [freeOld, Vec.base, hb, bind, Except.bind]
    cases hself : v.self with
    | true =>
      simp only [if_true]
      rw [free_ok (by rw [setBlk_blocks, if_pos rfl]) (by
        intro e s hs'
        rw [List.drop_of_length_le (by simp)] at hs'
        simp at hs'; exact hs'.2)]
      simp [pure, Except.pure, Heap.read, Heap.get, bind, Except.bind]
    | false =>
      simp only [Bool.false_eq_true, if_false, pure, Except.pure]
      have : (List.replicate l.length (Slot.raw (α := α)))[j]? = some .raw := by
        rw [List.getElem?_replicate, if_pos hj]
      simp [Heap.read, Heap.get, bind, Except.bind, this]
  refine ⟨h1, fun off ho => ?_⟩
  unfold insertOneRef
  rw [h1]
  simp [r.used, ho, bind, Except.bind]

/-- Non-vacuity (C10): a full vector. -/
example : ∃ s : State Nat, run 32 true State.empty [.push 0 1] = .ok s ∧
    (s.vs 0).alloc = 1 ∧ (s.vs 0).used = 1 ∧
    (pushBackRef 32 true s.h (s.vs 0) 0 0).map (fun _ => ()) = .error .ub :=
  ⟨_, rfl, by decide +kernel, by decide +kernel, by decide +kernel⟩

/-! ## C50 -/

/-- **C50 (partial)** In strict mode (every overwritten or released live object is reported) every
history that does not shrink by `resize` and does not `set`/copy-assign over existing elements still
runs without any report: every element is destroyed exactly once, every allocation is released at
most once, and when all vectors are destroyed no allocation remains.  Missing: the excluded
operations, which skip destructors (`C50_leak_violated`). -/
theorem C50_lifetimes_partial {W : Nat} (hW : Arith.StdWidth W) (ops : List (Op α)) (m : Nat → List α)
    (he : Along W (fun m op => op.NoEmptyInsert m) (fun _ => []) ops)
    (ho : Along W (fun m op => op.NoOverwrite m) (fun _ => []) ops)
    (hs : specRun W (fun _ => []) ops = some m) :
    ∃ s, run W true State.empty ops = .ok s ∧
      (∀ b, s.h.blocks b ≠ none → ∃ x, (s.vs x).ptr = some b ∧ ∀ y, (s.vs y).ptr = some b → y = x) ∧
      ((∀ x, s.vs x = Vec.empty) → ∀ b, s.h.blocks b = none) := by
  obtain ⟨s, e, w⟩ := run_ok hW ops (wf_empty true) he (fun _ => ho) hs
  have h1 : ∀ b, s.h.blocks b ≠ none →
      ∃ x, (s.vs x).ptr = some b ∧ ∀ y, (s.vs y).ptr = some b → y = x := by
    intro b hb
    rcases w.owned b hb with h | ⟨x, hx, _⟩
    · cases h
    · exact ⟨x, hx, fun y hy => w.inj y x b hy hx⟩
  refine ⟨s, e, h1, ?_⟩
  intro hall b
  cases hb : s.h.blocks b with
  | none => rfl
  | some ss =>
    obtain ⟨x, hx, _⟩ := h1 b (by rw [hb]; simp)
    rw [hall x] at hx; cases hx

/-- Non-vacuity (C50). -/
example : (run 32 true State.empty [.push 0 1, .push 0 2, .push 0 3, .insertRange 0 0 [7, 8], .copyAssign 1 0,
    .eraseRange 0 1 3, .moveAssign 0 1, .destroy 0, .destroy 1] : Res (State Nat)).isOk = true := by
  decide +kernel

/-- **C50 violated** Shrinking any vector with `resize` leaves the surplus elements alive: they are not destroyed, and never are when the
vector releases its memory.  Copy assignment and `set` construct over the elements of the vector, which are not destroyed either,
whatever the vectors contain. -/
theorem C50_leak_violated {W : Nat} (hW : Arith.StdWidth W) (h : Heap α) (v : Vec) (l : List α) (r : Rep true h v l) (hf : Fresh h)
    (hne : l ≠ []) :
    (∀ n a, n < l.length → v.self = true → ∃ v', resize W true h v n a = .ok (h, v') ∧ toList h v' = .ok (l.take n) ∧
      deallocate true h v' = .error .leak) ∧
    ∀ xs, xs ≠ [] → xs.length ≤ 2 ^ (W - 1) → set W true h v xs = .error .leak := by
  have hpos : 0 < l.length := List.length_pos_iff.2 hne
  constructor
  · intro n a hn hself
    obtain ⟨b, rest, hp, hlt, hs, hu, ha, hr⟩ := r.toBlk (Or.inr (by
      cases r with
      | null hv hl => exact absurd hl hne
      | blk b rest hp hb hs hu ha hr => omega))
    have hres : resize W true h v n a = .ok (h, { v with used := n }) := by
      unfold resize
      have hfit : reserve W true h v n = .ok (h, v) := by
        unfold reserve
        simp only []
        rw [if_pos (by omega)]
      rw [hfit, ok_bind]
      simp only
      rw [show n - v.used = 0 by omega, List.replicate_zero, constructFrom, ok_bind]
      rfl
    have hsplit : vals l ++ rest = [] ++ (vals (l.take n) ++ (vals (l.drop n) ++ rest)) := by
      rw [List.nil_append, ← List.append_assoc]
      congr 1
      unfold vals
      rw [← List.map_append, List.take_append_drop]
    refine ⟨_, hres, ?_, ?_⟩
    · have r2 : Rep false h { v with used := n } (l.take n) := by
        refine .blk b (vals (l.drop n) ++ rest) hp hlt ?_ ?_ ?_ (fun h => by cases h)
        · rw [hs, hsplit, List.nil_append]
        · show n = _
          rw [List.length_take]; omega
        · show v.alloc = _
          simp [vals]; omega
      exact toList_ok r2
    · unfold deallocate
      have hd := destroyLoop_ok (h := h) (b := b) (lo := 0) (p := []) (q := vals (l.drop n) ++ rest) (vals (l.take n)) rfl
        (by intro s hs'; unfold vals at hs'; obtain ⟨x, _, rfl⟩ := List.mem_map.1 hs'; rfl) (by rw [hs, hsplit]) n (by simp [vals]; omega)
      rw [if_neg (by simp [hself, hp])]
      simp only [Vec.base, hp]
      rw [ok_bind, hd, ok_bind]
      unfold Heap.free
      simp only [setBlk_blocks, if_true]
      have hx : l[n] ∈ l.drop n := by
        rw [List.drop_eq_getElem_cons hn]; exact List.mem_cons_self
      rw [if_pos]
      · rfl
      · simp only [Bool.true_and, List.any_eq_true]
        exact ⟨.val l[n], by simp only [List.mem_append]; exact Or.inr (Or.inr (Or.inr (Or.inl (List.mem_map.2 ⟨_, hx, rfl⟩)))), rfl⟩
  · intro xs hxs hl
    unfold set
    have hle : xs.length ≤ 2 ^ W - 1 := by
      have : 2 ^ (W - 1) < 2 ^ W := Nat.pow_lt_pow_right (by decide) (by rcases hW with h | h | h | h <;> omega)
      omega
    rw [decide_eq_true hle, verify_true, ok_bind]
    obtain ⟨h', v', e, r', hcap, hus, _⟩ := reserve_ok r hf (n := xs.length) ⟨hW, hl⟩
    rw [e, ok_bind]
    obtain ⟨b, rest, hp, hlt, hs, hu, ha, hr⟩ := r'.toBlk (Or.inr (by
      cases r' with
      | null hv hl => exact absurd hl hne
      | blk b rest hp hb hs hu ha hr => omega))
    obtain ⟨x, xs, rfl⟩ := List.exists_cons_of_ne_nil hxs
    obtain ⟨y, l, rfl⟩ := List.exists_cons_of_ne_nil hne
    simp only [constructFrom, Vec.base, hp, ok_bind]
    have hg : h'.get b 0 = .ok (.val y) := by
      unfold Heap.get; rw [hs]; rfl
    rw [constructAll, Heap.construct, hg]
    rfl

example : (run 32 true State.empty [.push 0 1, .resize 0 0 0, .destroy 0] : Res (State Nat)).map (fun _ => ()) = .error .leak ∧
    (run 32 true State.empty [.push 0 1, .push 1 2, .copyAssign 0 1] : Res (State Nat)).map (fun _ => ()) = .error .leak := by
  decide +kernel

/-! ## C51 -/

/-- **C51 (partial)** `erase(pos)` returns the position of the following element, the forward-range
insertion the position of the first inserted element.  Missing: single/repeated/input insertion and
`erase(first, last)`, where the returned iterator is wrong (`C51_insert_violated`,
`C51_erase_range_violated`). -/
theorem C51_erase_partial {W : Nat} (hW : Arith.StdWidth W) {strict : Bool} (h : Heap α) (v : Vec)
    (l : List α) (r : Rep strict h v l) (hf : Fresh h) :
    (∀ pos, pos < l.length → ∃ h' v', erase h v pos = .ok (h', v', pos) ∧
      toList h' v' = .ok (l.eraseIdx pos)) ∧
    (∀ off xs, off ≤ l.length → l.length + xs.length ≤ 2 ^ (W - 1) → xs ≠ [] →
      ∃ h' v', insertRange W strict h v off xs = .ok (h', v', off) ∧
        toList h' v' = .ok (specInsert l off xs)) := by
  constructor
  · intro pos hp
    obtain ⟨h', v', e, r', _⟩ := erase_ok r hf hp
    exact ⟨h', v', e, by rw [toList_ok r', List.eraseIdx_eq_take_drop_succ]⟩
  · intro off xs ho hlim hne
    obtain ⟨h', v', e, r', _⟩ := insertRange_ok (W := W) r hf ⟨hW, hlim⟩ ho (Or.inl hne)
    exact ⟨h', v', e, toList_ok r'⟩

/-- **C51 violated** `insert(pos, value)`, `insert(pos, n, value)` and input-iterator insertion always
return the position *behind* the inserted elements (the result of `std::rotate`), not of the first
inserted one. -/
theorem C51_insert_violated {W : Nat} (hW : Arith.StdWidth W) {strict : Bool} (h : Heap α) (v : Vec)
    (l : List α) (r : Rep strict h v l) (hf : Fresh h) (off : Nat) (ho : off ≤ l.length) :
    (∀ a, l.length + 1 ≤ 2 ^ (W - 1) → ∃ h' v', insertOne W strict h v off a = .ok (h', v', off + 1)) ∧
    (∀ n a, l.length + n ≤ 2 ^ (W - 1) → ∃ h' v', insertN W strict h v off n a = .ok (h', v', off + n)) ∧
    (∀ xs, l.length + xs.length ≤ 2 ^ (W - 1) →
      ∃ h' v', insertInput W strict h v off xs = .ok (h', v', off + xs.length)) := by
  refine ⟨fun a hl => ?_, fun n a hl => ?_, fun xs hl => ?_⟩
  · obtain ⟨h', v', e, _⟩ := insertOne_ok (W := W) r hf ⟨hW, hl⟩ ho a; exact ⟨h', v', e⟩
  · obtain ⟨h', v', e, _⟩ := insertN_ok (W := W) r hf ⟨hW, hl⟩ ho a; exact ⟨h', v', e⟩
  · obtain ⟨h', v', e, _⟩ := insertInput_ok (W := W) r hf ⟨hW, hl⟩ ho; exact ⟨h', v', e⟩

/-- **C51 violated** `erase(first, last)` always returns the new `end()` instead of the position of
the element following the erased range (they differ whenever elements follow it). -/
theorem C51_erase_range_violated {strict : Bool} (h : Heap α) (v : Vec) (l : List α)
    (r : Rep strict h v l) (hf : Fresh h) (i j : Nat) (hij : i ≤ j) (hj : j < l.length) :
    ∃ h' v' p, eraseRange h v i j = .ok (h', v', p) ∧ toList h' v' = .ok (l.take i ++ l.drop j) ∧ p ≠ i := by
  obtain ⟨h', v', e, r', _⟩ := eraseRange_ok r hf hij (Nat.le_of_lt hj)
  exact ⟨h', v', _, e, toList_ok r', by omega⟩

/-- Non-vacuity (C51). -/
example : ∃ s : State Nat, run 32 true State.empty [.push 0 1, .push 0 2, .push 0 3] = .ok s ∧
    (eraseRange s.h (s.vs 0) 0 1).map (·.2.2) = .ok 2 ∧
    (insertOne 32 true s.h (s.vs 0) 1 9).map (·.2.2) = .ok 2 := ⟨_, rfl, by decide +kernel, by decide +kernel⟩

end Cista.Vector

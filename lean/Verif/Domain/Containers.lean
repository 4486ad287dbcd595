import Verif.Vector.Props
import Verif.Str.Props
import Verif.Str.CProps
import Verif.Multi.VecVec
import Verif.HS.Check
import Verif.Misc.MmapVec
import Verif.Sum.UPtr
import Verif.RTree.Props

/-!
# Histories on which the containers keep all of their promises

The general claims about these containers fail for a few operations.  Each theorem here names a set of operations a user can stick to,
and shows the complete claim for every history of these.
-/

namespace Cista.Vector

open Cista.Mem

variable {α : Type}

/-- Operations that never lose an element: everything but shrinking by `resize`, `set`/copy assignment onto existing elements, and
inserting an empty forward range. -/
def Op.Plain (m : Nat → List α) (op : Op α) : Prop := op.NoEmptyInsert m ∧ op.NoOverwrite m

theorem along_and {W : Nat} {P Q : (Nat → List α) → Op α → Prop} : ∀ (ops : List (Op α)) (m : Nat → List α),
    Along W (fun m op => P m op ∧ Q m op) m ops → Along W P m ops ∧ Along W Q m ops
  | [], _, _ => ⟨trivial, trivial⟩
  | _ :: ops, _, h => ⟨⟨h.1.1, fun m' e => (along_and ops m' (h.2 m' e)).1⟩, ⟨h.1.2, fun m' e => (along_and ops m' (h.2 m' e)).2⟩⟩

/-- C59: a history of plain operations runs without undefined behaviour; every element is destroyed exactly once (an object that is
overwritten or whose storage is released while alive would be reported), every observer of every vector reports the list of the
specification, every allocation belongs to exactly one vector, and nothing stays allocated when all vectors are gone. -/
theorem C59_vector [DecidableEq α] {W : Nat} (hW : Arith.StdWidth W) (ops : List (Op α)) (m : Nat → List α)
    (hp : Along W (fun m op => op.Plain m) (fun _ => []) ops) (hs : specRun W (fun _ => []) ops = some m) :
    ∃ s, run W true State.empty ops = .ok s ∧ (∀ x, Observes s m x) ∧
      (∀ b, s.h.blocks b ≠ none → ∃ x, (s.vs x).ptr = some b ∧ (s.vs x).self = true ∧ ∀ y, (s.vs y).ptr = some b → y = x) ∧
      ((∀ x, s.vs x = Vec.empty) → ∀ b, s.h.blocks b = none) := by
  obtain ⟨h1, h2⟩ := along_and ops _ hp
  obtain ⟨s, e, w⟩ := run_ok hW ops (wf_empty true) h1 (fun _ => h2) hs
  have h3 : ∀ b, s.h.blocks b ≠ none → ∃ x, (s.vs x).ptr = some b ∧ (s.vs x).self = true ∧ ∀ y, (s.vs y).ptr = some b → y = x := by
    intro b hb
    rcases w.owned b hb with h | ⟨x, hx, hx'⟩
    · cases h
    · exact ⟨x, hx, hx', fun y hy => w.inj y x b hy hx⟩
  refine ⟨s, e, fun x => observes w x, h3, fun hall b => ?_⟩
  cases hb : s.h.blocks b with
  | none => rfl
  | some ss =>
    obtain ⟨x, hx, _⟩ := h3 b (by rw [hb]; simp)
    rw [hall x] at hx; cases hx

example : Along 32 (fun m op => op.Plain m) (fun _ => [])
      [.push 0 1, .insertRange 0 0 [7, 8], .copyAssign 1 0, .resize 1 4 5, .eraseRange 0 1 2, .moveAssign 0 1, .destroy 1] ∧
    ∃ m, specRun 32 (fun _ => [])
      [.push 0 1, .insertRange 0 0 [7, 8], .copyAssign 1 0, .resize 1 4 5, .eraseRange 0 1 2, .moveAssign 0 1, .destroy 1] = some m ∧
      m 0 = [7, 8, 1, 5] := by
  refine ⟨?_, _, rfl, by decide⟩
  refine ⟨⟨trivial, trivial⟩, fun _ h => ?_⟩; cases h
  refine ⟨⟨Or.inl (by decide), trivial⟩, fun _ h => ?_⟩; cases h
  refine ⟨⟨trivial, Or.inr (by decide)⟩, fun _ h => ?_⟩; cases h
  refine ⟨⟨trivial, (by decide : _ ≤ _)⟩, fun _ h => ?_⟩; cases h
  refine ⟨⟨trivial, trivial⟩, fun _ h => ?_⟩; cases h
  refine ⟨⟨trivial, trivial⟩, fun _ h => ?_⟩; cases h
  exact ⟨⟨trivial, trivial⟩, fun _ _ => trivial⟩

end Cista.Vector

namespace Cista.Str

variable {w : Nat}

/-- Text without NUL characters comes in, and no string is assigned from itself. -/
def Op.Plain (ext : Ext w) : Op w → Prop
  | .assign _ b off len | .reference _ b off len => ∀ cs, ext b = some cs → 0#w ∉ slice cs off len
  | .assignSub d x _ _ => x ≠ d
  | .assignView d x => x ≠ d
  | .write _ _ c => c ≠ 0#w
  | _ => True

def Usable (ext : Ext w) : (Nat → Var w) → List (Op w) → Prop
  | _, [] => True
  | m, op :: ops => op.Pre ext m ∧ op.Plain ext ∧ ∀ m', op.Step ext m m' → Usable ext m' ops

/-- No variable's text contains a NUL character. -/
def NulFree (m : Nat → Var w) : Prop := ∀ x, 0#w ∉ (m x).text

theorem slice_sub {α : Type} {l : List α} {off n : Nat} {c : α} (h : c ∈ slice l off n) : c ∈ l :=
  List.mem_of_mem_drop (List.mem_of_mem_take h)

theorem NulFree.upd {m : Nat → Var w} (h : NulFree m) {d : Nat} {v : Var w} (hv : 0#w ∉ v.text) : NulFree (upd m d v) := by
  intro x
  unfold Str.upd
  split
  · exact hv
  · exact h x

theorem nul_cstr (cs : List (Ch w)) (off : Nat) : 0#w ∉ cstr cs off := by
  intro hm
  have := List.all_takeWhile (p := fun c => decide (c ≠ 0#w)) (l := cs.drop off)
  rw [List.all_eq_true] at this
  have := this _ hm
  simp at this

theorem NulFree.step {ext : Ext w} {m m' : Nat → Var w} (h : NulFree m) {op : Op w} (hp : op.Plain ext) (hs : op.Step ext m m') :
    NulFree m' := by
  cases hs with
  | assign he => exact h.upd (hp _ he)
  | reference he => exact h.upd (hp _ he)
  | assignC he => exact h.upd (nul_cstr _ _)
  | referenceC he => exact h.upd (nul_cstr _ _)
  | assignSub => exact h.upd fun hm => h _ (slice_sub hm)
  | copy => exact h.upd (h _)
  | assignString => exact h.upd (h _)
  | assignView => exact h.upd (h _)
  | moveSelf => exact h
  | move hne hv ho =>
    refine (h.upd (h _)).upd ?_
    rcases hv with hv | hv
    · rw [hv]; simp
    · rw [hv]; exact h _
  | reset => exact h.upd (by simp)
  | erase =>
    refine h.upd fun hm => ?_
    rcases List.mem_append.1 hm with hm | hm
    · exact h _ (List.mem_of_mem_take hm)
    · exact h _ (List.mem_of_mem_drop hm)
  | write =>
    refine h.upd fun hm => ?_
    rcases List.mem_or_eq_of_mem_set hm with hm | hm
    · exact h _ hm
    · exact hp hm.symm

theorem usable_allowed {L : Nat} {ext : Ext w} : ∀ (ops : List (Op w)) (m : Nat → Var w), NulFree m → Usable ext m ops → Allowed L ext m ops
  | [], _, _, _ => trivial
  | op :: ops, m, hn, ⟨hp, hq, hr⟩ => by
    refine ⟨hp, ?_, fun m' hs => usable_allowed ops m' (hn.step hq hs) (hr m' hs)⟩
    cases op with
    | assign d b off len => exact fun cs hc _ => hq cs hc
    | reference d b off len => exact fun cs hc _ => hq cs hc
    | assignSub d x off n => exact ⟨hq, fun _ hm => hn x (slice_sub hm)⟩
    | copy d x => exact fun _ => hn x
    | assignString d x => exact fun _ => hn x
    | assignView d x => exact ⟨fun hxd => absurd hxd hq, fun _ => hn x⟩
    | erase d pos n => exact fun _ => hn d
    | write d i c => exact fun _ => hq
    | assignC => trivial
    | referenceC => trivial
    | move => trivial
    | reset => trivial

theorem steps_nulFree {ext : Ext w} : ∀ {ops : List (Op w)} {m m' : Nat → Var w}, NulFree m → Usable ext m ops → Steps ext m ops m' → NulFree m'
  | [], _, _, hn, _, .nil => hn
  | _ :: _, _, _, hn, ⟨_, hq, hr⟩, .cons h1 h2 => steps_nulFree (hn.step hq h1) (hr _ h1) h2

/-- C60: text without NUL characters is stored and returned by strings and views of every inline capacity and both pointer types,
through every history of assignments, references, copies, moves, resets, erases and character writes that does not assign a string from
itself; no memory is leaked or owned twice. -/
theorem C60_text {L : Nat} (hL : L < 2 ^ 32) (raw : Bool) (ext : Ext w) (next : Nat) (hn : ∀ b, next ≤ b → ext b = none) (ops : List (Op w))
    (ha : Usable ext (fun _ => ⟨[], true⟩) ops) :
    ∃ st m, run L raw (St.start ext next) ops = .ok st ∧ Steps ext (fun _ => ⟨[], true⟩) ops m ∧
      (∀ x, Observes st x (m x).text ∧ 0#w ∉ (m x).text) ∧
      (∀ b, st.mem.blocks b ≠ none → ext b = none → ∃ x, st.data x = .mem b 0 ∧ ∀ y n i, st.strs y = .heap true n (some (b, i)) → y = x) := by
  have h0 : NulFree (w := w) (fun _ => ⟨[], true⟩) := fun _ => by simp
  obtain ⟨st, m, h1, h2, h3, h4⟩ := C15_history_partial hL raw ext next hn ops (usable_allowed ops _ h0 ha)
  exact ⟨st, m, h1, h2, fun x => ⟨h3 x, steps_nulFree h0 ha h2 x⟩, h4⟩

/-- A text of twenty characters and a part of it. -/
example : Usable (w := 8) (fun b => if b = 0 then some (List.replicate 20 65#8) else none) (fun _ => ⟨[], true⟩)
    [.assign 0 0 0 20, .assignSub 1 0 3 5, .write 1 2 66#8, .move 2 0, .erase 1 0 2] := by
  refine ⟨⟨_, rfl, by decide, by decide⟩, fun cs h => ?_, fun m1 h1 => ?_⟩
  · cases h; decide
  · cases h1 with | assign h =>
    simp only [if_true, Option.some.injEq] at h
    subst h
    refine ⟨by simp [Op.Pre, upd, slice], by simp [Op.Plain], fun m2 h2 => ?_⟩
    cases h2
    refine ⟨⟨rfl, by simp [upd, slice]⟩, by simp [Op.Plain], fun m3 h3 => ?_⟩
    cases h3
    refine ⟨trivial, trivial, fun m4 h4 => ?_⟩
    cases h4
    refine ⟨by simp [Op.Pre, upd, slice], trivial, fun _ _ => trivial⟩

end Cista.Str

namespace Cista.CStr

open Cista.Str (Ext Var)

/-- Lengths below 2³¹, no assignment of a string from itself, moves only onto strings that own no heap memory. -/
def Op.Plain (ext : Ext 8) (m : Nat → Var 8) : Op → Prop
  | .assign _ _ _ len => len < 2 ^ 31
  | .assignC _ b off => ∀ cs, ext b = some cs → (cstr cs off).length < 2 ^ 31
  | .assignSub d x _ n => x ≠ d ∧ n < 2 ^ 31
  | .assignString d x => x ≠ d ∧ (m x).text.length < 2 ^ 31
  | .move d x => d ≠ x ∧ ((m d).own = false ∨ (m d).text.length ≤ 15)
  | _ => True

def Usable (ext : Ext 8) : (Nat → Var 8) → List Op → Prop
  | _, [] => True
  | m, op :: ops => op.Pre ext m ∧ op.Plain ext m ∧ ∀ m', op.Step ext m m' → Usable ext m' ops

theorem usable_allowed {ext : Ext 8} : ∀ (ops : List Op) (m : Nat → Var 8), Usable ext m ops → Allowed ext m ops
  | [], _, _ => trivial
  | op :: ops, m, ⟨hp, hq, hr⟩ => by
    refine ⟨hp, ?_, fun m' hs => usable_allowed ops m' (hr m' hs)⟩
    cases op with
    | assign d b off len => exact Or.inl (Nat.lt_trans hq (by decide))
    | assignC d b off => exact fun cs hc => Or.inl (Nat.lt_trans (hq cs hc) (by decide))
    | assignSub d x off n => exact ⟨hq.1, Or.inl (Nat.lt_trans hq.2 (by decide))⟩
    | assignString d x => exact ⟨hq.1, Or.inl (Nat.lt_trans hq.2 (by decide))⟩
    | move d x => exact hq
    | reference => trivial
    | referenceC => trivial
    | assignView => trivial
    | reset => trivial
    | write => trivial

/-- C61: bytes (NUL included) of length below 2³¹ are stored and returned by `cstring` and `cstring_view`, owning strings end with a
NUL, and exactly the long owning strings occupy heap memory, through every history in which no string is assigned from itself or moved
onto a string on the heap. -/
theorem C61_cstring (raw : Bool) (ext : Ext 8) (n : Nat) (hn : ∀ b, n ≤ b → ext b = none) (ops : List Op)
    (ha : Usable ext (fun _ => ⟨[], false⟩) ops) :
    ∃ st' m', run raw (start ext n) ops = .ok st' ∧ Steps ext (fun _ => ⟨[], false⟩) ops m' ∧
      (∀ x, st'.view x = .ok (m' x).text ∧ st'.size x = (m' x).text.length ∧ ((m' x).own = true → st'.terminator x = .ok 0#8)) ∧
      (∀ b cs, ext b = some cs → st'.mem.blocks b = some cs) ∧
      (∀ b, st'.mem.blocks b ≠ none → ext b ≠ none ∨
        ∃ x, (m' x).own = true ∧ 15 < (m' x).text.length ∧ st'.strs x = .heap true (m' x).text.length (.mem b 0)) :=
  C17_history_partial raw ext n hn ops (usable_allowed ops _ ha)

example : Usable (fun b => if b = 0 then some (List.replicate 30 0#8) else none) (fun _ => ⟨[], false⟩)
    [.assign 0 0 0 20, .reference 1 0 5 3, .assignString 2 0, .move 1 2] := by
  refine ⟨⟨_, rfl, by decide, by decide⟩, (by decide : 20 < 2 ^ 31), fun m1 h1 => ?_⟩
  cases h1 with | assign h =>
  simp only [if_true, Option.some.injEq] at h
  subst h
  refine ⟨⟨_, rfl, by decide, by decide⟩, trivial, fun m2 h2 => ?_⟩
  cases h2 with | reference h =>
  simp only [if_true, Option.some.injEq] at h
  subst h
  refine ⟨trivial, ⟨by decide, by simp [Str.upd, Str.slice]⟩, fun m3 h3 => ?_⟩
  cases h3
  exact ⟨trivial, ⟨by decide, Or.inl (by simp [Str.upd])⟩, fun _ _ => trivial⟩

end Cista.CStr

namespace Cista.Multi.VecVec

variable {α : Type}

def Op.noResize : Op α → Bool
  | .resize _ => false
  | _ => true

/-- Caller obligations only. -/
def Usable (W : Nat) (dflt : α) : List (List α) → List (Op α) → Prop
  | _, [] => True
  | L, op :: ops => op.Pre W dflt L ∧ Usable W dflt (op.spec dflt L) ops

theorem usable_allowed {W : Nat} {dflt : α} : ∀ (ops : List (Op α)) (L : List (List α)), ops.all Op.noResize = true → Usable W dflt L ops →
    Allowed W dflt L false ops
  | [], _, _, _ => trivial
  | op :: ops, L, hn, ⟨hp, hr⟩ => by
    simp only [List.all_cons, Bool.and_eq_true] at hn
    have ih := usable_allowed ops (op.spec dflt L) hn.2 hr
    cases op with
    | resize n => simp [Op.noResize] at hn
    | _ => exact ⟨hp, by simp [Op.NoBug], ih⟩

/-- C62: a vecvec used without `resize` behaves like a list of lists: size, iteration, every bucket and every element. -/
theorem C62_vecvec (W : Nat) (dflt : α) (ops : List (Op α)) (hn : ops.all Op.noResize = true) (ha : Usable W dflt [] ops) :
    ∃ v, run W dflt .empty ops = .ok v ∧ v.size W = (specRun dflt [] ops).length ∧ v.iterate W = .ok (specRun dflt [] ops) ∧
      ∀ i b, (specRun dflt [] ops)[i]? = some b → v.bucket i = .ok b ∧ v.constBucket i = .ok b ∧ v.at i = .ok i ∧
        ∀ j, v.bucketAt i j = match b[j]? with | some x => .ok x | none => .error .exn := by
  obtain ⟨v, h1, h2, h3, h4, _⟩ := C22_history_partial W dflt ops (usable_allowed ops [] hn ha)
  exact ⟨v, h1, h2, h3, fun i b hb => ⟨(h4 i b hb).1, (h4 i b hb).2.1, (h4 i b hb).2.2.2, (h4 i b hb).2.2.1⟩⟩

example : Usable 32 0 [] [.emplaceBack [1, 2], .addBackSized 1, .pushBack 0 7, .write 1 0 5, .emplaceBack []] ∧
    specRun 0 [] [.emplaceBack [1, 2], .addBackSized 1, .pushBack 0 7, .write 1 0 5, .emplaceBack []] = [[1, 2, 7], [5], []] := by
  refine ⟨?_, by decide⟩
  refine ⟨⟨trivial, by decide, by decide⟩, ⟨trivial, by decide, by decide⟩, ⟨by decide, by decide, by decide⟩,
    ⟨⟨_, rfl, by decide⟩, by decide, by decide⟩, ⟨trivial, by decide, by decide⟩, trivial⟩

end Cista.Multi.VecVec

namespace Cista.HS

variable {K V : Type} [DecidableEq K]

def Op.noRehash : Op K V → Bool
  | .rehash => false
  | _ => true

theorem noRehash_allowed {d : V} : ∀ (ops : List (Op K V)) (m : List (K × V)), ops.all Op.noRehash = true → Allowed d m ops
  | [], _, _ => trivial
  | op :: ops, m, hn => by
    simp only [List.all_cons, Bool.and_eq_true] at hn
    refine ⟨?_, noRehash_allowed ops _ hn.2⟩
    cases op with
    | rehash => simp [Op.noRehash] at hn
    | _ => trivial

/-- C63: a hash map or set used without explicit `rehash()` calls is a finite map, for every hash function (also a constant one) and
every history of fewer than 2⁶⁰ operations: all answers, `size()`, lookups (which inspect at most `capacity() + 1` groups), iteration, and
nothing is leaked. -/
theorem C63_hash_map (hash : K → Nat) (d : V) (ops : List (Op K V)) (hlen : ops.length < 2 ^ 60) (hn : ops.all Op.noRehash = true) :
    ∃ st, run hash d HS.init ops = .ok (st, (specRun d [] ops).2) ∧ st.size = (specRun d [] ops).1.length ∧
      (∀ k, get hash st k = .ok (lookup (specRun d [] ops).1 k)) ∧ ((specRun d [] ops).1.map Prod.fst).Nodup ∧
      (∀ k, ∃ r, ∀ fuel, st.cap < fuel → findN hash fuel st k = .ok r) ∧
      (∃ es, iterate st = .ok es ∧ es.Perm (specRun d [] ops).1) ∧ destroy st = .ok () := by
  have ha := noRehash_allowed (d := d) ops [] hn
  obtain ⟨st, h1, h2, h3, h4, h5⟩ := C31_history hash d ops hlen ha
  exact ⟨st, h1, h2, h3, h4, fun k => C32_find_terminates hash d ops hlen ha h1 k, C33_iteration hash d ops hlen ha h1, h5⟩

theorem iterate_serialized {hash : K → Nat} {N : Nat} {st : HS K V} {m : List (K × V)} (h : Rep hash N st m) :
    iterate (serialized st) = iterate st := by
  obtain ⟨S, hi, _⟩ := h
  have hi' : Inv hash N (serialized st) S := ⟨hi.lay, hi.cap, hi.core, hi.size, hi.cnt, hi.blk, hi.bnd, hi.cbnd⟩
  rw [iterate_ok hi, iterate_ok hi']
  rfl

/-- C64: a hash map filled without erasing passes the checks of deserialization when written, and the loaded map gives the answers of
the original. -/
theorem C64_hash_map_loaded (hash : K → Nat) (d : V) (ops : List (Op K V)) (hlen : ops.length < 2 ^ 60)
    (hn : ops.all Op.noRehash = true) (he : ops.all Op.noErase = true) :
    ∃ st outs, run hash d HS.init ops = .ok (st, outs) ∧ checkState (serialized st) = .ok () ∧
      (∀ k, get hash (serialized st) k = .ok (lookup (specRun d [] ops).1 k)) ∧
      ∃ es, iterate (serialized st) = .ok es ∧ es.Perm (specRun d [] ops).1 := by
  have ha := noRehash_allowed (d := d) ops [] hn
  obtain ⟨st, outs, h1, h2⟩ := C41_hash_partial hash d ops hlen ha he
  obtain ⟨st0, h3, h4⟩ := run_ok ops (Rep.init hash) (by omega) ha
  rw [h1] at h3
  injection h3 with h3
  injection h3 with h3 _
  subst h3
  obtain ⟨es, h5, h6⟩ := C33_iteration hash d ops hlen ha h1
  refine ⟨st, outs, h1, h2, fun k => (C42_serialized_partial h4 k).1, es, ?_, h6⟩
  rw [iterate_serialized h4, h5]

example : ([.emplace 1 2, .bracket 7, .assign 7 3, .atKey 9, .copy, .size] : List (Op Nat Nat)).all Op.noRehash = true ∧
    ([.emplace 1 2, .bracket 7, .assign 7 3, .atKey 9, .copy, .size] : List (Op Nat Nat)).all Op.noErase = true ∧
    (specRun 0 [] ([.emplace 1 2, .bracket 7, .assign 7 3, .atKey 9, .copy, .size] : List (Op Nat Nat))).2 =
      [.inserted 2 true, .value (some 0), .none, .threw, .none, .count 2] := by decide

end Cista.HS

namespace Cista.MmapVec

def Op.noReserve : Op → Bool
  | .reserve _ => false
  | _ => true

theorem noReserve_pend {C : List (List Byte)} {op : Op} (h : op.noReserve = true) : op.pend C false = false := by
  cases op <;> simp_all [Op.noReserve, Op.pend]

theorem noReserve_pendRun {c : Cfg} : ∀ (ops : List Op) (C : List (List Byte)), ops.all Op.noReserve = true → pendRun c C false ops = false
  | [], _, _ => rfl
  | op :: ops, C, h => by
    simp only [List.all_cons, Bool.and_eq_true] at h
    simp only [pendRun, noReserve_pend h.1]
    exact noReserve_pendRun ops _ h.2

/-- Caller obligations: sizes and positions. -/
def Usable (c : Cfg) : List (List Byte) → List Op → Prop
  | _, [] => True
  | C, op :: ops => op.Pre c C false ∧ Usable c (op.spec c C) ops

theorem usable_allowed {c : Cfg} : ∀ (ops : List Op) (C : List (List Byte)), ops.all Op.noReserve = true → Usable c C ops →
    Allowed c C false ops
  | [], _, _, _ => trivial
  | op :: ops, C, h, ⟨hp, hr⟩ => by
    simp only [List.all_cons, Bool.and_eq_true] at h
    refine ⟨hp, ?_⟩
    rw [noReserve_pend h.1]
    exact usable_allowed ops _ h.2 hr

/-- C65: a file-backed vector used without explicit `reserve` calls holds the elements of the specification through every history of
appends, insertions, resizes, writes and close/reopen, and closing it leaves exactly their bytes in the file. -/
theorem C65_mmap_vec {c : Cfg} (hs : 0 < c.s) (hz : c.zero.length = c.s) (ops : List Op) (hn : ops.all Op.noReserve = true)
    (ha : Usable c [] ops) :
    ∃ st, run c fresh ops = .ok st ∧ st.vused = (specRun c [] ops).length ∧
      (∀ (i : Nat) (x : List Byte), (specRun c [] ops)[i]? = some x → st.get c i = .ok x) ∧
      (close c st).1 = (specRun c [] ops).flatten := by
  have hal := usable_allowed ops [] hn ha
  obtain ⟨st, h1, h2, h3⟩ := C46_history_partial hs hz ops hal
  obtain ⟨st', h4, h5⟩ := C46_file hs hz ops hal (noReserve_pendRun ops [] hn)
  rw [h1] at h4
  cases h4
  exact ⟨st, h1, h2, h3, h5⟩

example : 0 < cfg1.s ∧ cfg1.zero.length = cfg1.s ∧
    ([.pushBack [1, 2], .insertFwd 0 [[3, 4], [5, 6]], .reopen, .resize 4, .insert 1 [7, 8], .put 0 [9, 9], .insertInput 2 [[1, 1]],
      .reopen] : List Op).all Op.noReserve = true ∧
    Usable cfg1 [] [.pushBack [1, 2], .insertFwd 0 [[3, 4], [5, 6]], .reopen, .resize 4, .insert 1 [7, 8], .put 0 [9, 9],
      .insertInput 2 [[1, 1]], .reopen] := by
  refine ⟨by decide, rfl, by decide, ?_⟩
  simp [Usable, Op.Pre, Op.spec, cfg1]

end Cista.MmapVec

namespace Cista.UPtr

/-- Only pointers that own their object (or are null) are created. -/
def Op.owning : Op → Bool
  | .external => false
  | .borrow _ => false
  | _ => true

/-- The pointers exist. -/
def Usable : SState → List Op → Prop
  | _, [] => True
  | s, op :: ops => (match op with
      | .move j => j < s.ptrs.length
      | .moveAssign i j => i < s.ptrs.length ∧ j < s.ptrs.length
      | .reset i => i < s.ptrs.length
      | .assignNull i => i < s.ptrs.length
      | .destroy i => i < s.ptrs.length
      | _ => True) ∧ Usable (op.spec s) ops

def NoBorrow (s : SState) : Prop := ∀ o, SPtr.borrows o ∉ s.ptrs

theorem noBorrow_get {s : SState} (h : NoBorrow s) (j o : Nat) : s.ptrs.getD j .null ≠ .borrows o := by
  intro e
  rw [List.getD_eq_getElem?_getD] at e
  cases hj : s.ptrs[j]? with
  | none => rw [hj] at e; cases e
  | some p =>
    rw [hj] at e
    simp only [Option.getD_some] at e
    subst e
    exact h o (List.mem_of_getElem? hj)

theorem noBorrow_set {l : List SPtr} (h : ∀ o, SPtr.borrows o ∉ l) {i : Nat} {p : SPtr} (hp : ∀ o, p ≠ .borrows o) :
    ∀ o, SPtr.borrows o ∉ l.set i p := by
  intro o hm
  rcases List.mem_or_eq_of_mem_set hm with hm | hm
  · exact h o hm
  · exact hp o hm.symm

theorem NoBorrow.step {s : SState} (h : NoBorrow s) {op : Op} (hop : op.owning = true) : NoBorrow (op.spec s) := by
  have app : ∀ {l : List SPtr} {p : SPtr}, (∀ o, SPtr.borrows o ∉ l) → (∀ o, p ≠ .borrows o) → ∀ o, SPtr.borrows o ∉ l ++ [p] := by
    intro l p hl hp o hm
    rcases List.mem_append.1 hm with hm | hm
    · exact hl o hm
    · exact hp o (List.mem_singleton.1 hm).symm
  have hnull : ∀ o, SPtr.null ≠ .borrows o := fun o h => by cases h
  cases op with
  | make => exact app h (fun o h => by cases h)
  | external => cases hop
  | borrow o => cases hop
  | null => exact app h hnull
  | move j => exact app (noBorrow_set h hnull) (noBorrow_get h j)
  | moveAssign i j => exact noBorrow_set (noBorrow_set h (noBorrow_get h j)) hnull
  | reset i => exact noBorrow_set h hnull
  | assignNull i => exact noBorrow_set h hnull
  | destroy i => exact fun o hm => h o (List.mem_of_mem_eraseIdx hm)

theorem usable_allowed : ∀ (ops : List Op) (s : SState), NoBorrow s → ops.all Op.owning = true → Usable s ops → Allowed s ops
  | [], _, _, _, _ => trivial
  | op :: ops, s, hb, hn, ⟨hp, hr⟩ => by
    simp only [List.all_cons, Bool.and_eq_true] at hn
    refine ⟨?_, usable_allowed ops _ (hb.step hn.1) hn.2 hr⟩
    cases op with
    | external => simp [Op.owning] at hn
    | borrow o => simp [Op.owning] at hn
    | reset i => exact ⟨hp, fun o e => hb o (List.mem_of_getElem? e)⟩
    | assignNull i => exact ⟨hp, fun o e => hb o (List.mem_of_getElem? e)⟩
    | move j => exact hp
    | moveAssign i j => exact hp
    | destroy i => exact hp
    | make => trivial
    | null => trivial

/-- C66: with owning unique_ptrs only, every history of creating, moving, resetting, nulling and destroying pointers deletes nothing
twice; an object is alive exactly while a pointer owns it, and `get()` is null exactly after a reset, move or null assignment. -/
theorem C66_unique_ptr (ops : List Op) (hn : ops.all Op.owning = true) (ha : Usable ⟨[], []⟩ ops) :
    ∃ st, run ⟨[], []⟩ ops = .ok st ∧ st.ptrs.map Ptr.el = (specRun ⟨[], []⟩ ops).ptrs.map SPtr.target ∧
      (∀ (o : Nat) (x : Obj), st.heap[o]? = some x → (x.alive = true ↔ x.external = true ∨ SPtr.owns o ∈ (specRun ⟨[], []⟩ ops).ptrs)) ∧
      ((specRun ⟨[], []⟩ ops).ptrs = [] → ∀ x ∈ st.heap, x.external = false → x.alive = false) := by
  have hal := usable_allowed ops ⟨[], []⟩ (fun _ h => by cases h) hn ha
  obtain ⟨st, h1, h2, _, h3⟩ := C30_unique_ptr_partial ops hal
  refine ⟨st, h1, h2, h3, fun he => ?_⟩
  obtain ⟨st', h4, h5⟩ := C30_all_freed ops hal he
  rw [h1] at h4
  cases h4
  exact h5

example : Usable ⟨[], []⟩ [.make, .make, .moveAssign 0 1, .reset 1, .move 0, .destroy 0, .destroy 0, .destroy 0] ∧
    (specRun ⟨[], []⟩ [.make, .make, .moveAssign 0 1, .reset 1, .move 0]).ptrs = [.null, .null, .owns 1] := by
  refine ⟨?_, by decide⟩
  simp [Usable, Op.spec]

end Cista.UPtr

namespace Cista.RTree
open Coord

variable {N T : Type} [Coord N] {D : Nat}

local instance : Mode := ⟨False⟩

/-- C67: an R-tree with the default node capacity is a multiset of rectangles with values for every history with fewer than 2³¹
insertions: every operation answers as the specification says, and at the end `size()` is the number of entries and a search reports
exactly the entries meeting the query. -/
theorem C67_rtree [NeZero D] [DecidableEq T] (ops : List (Op N T D)) (hn : inserts ops < 2 ^ 31) :
    ∃ st os m, run 64 (RT.init : RT N T D) ops = .ok (st, os) ∧ Steps [] ops os m ∧ st.count = m.length ∧
      ∀ r : Rect N D, ∃ found rest, search st r (fun _ _ => true) = .ok found ∧ m.Perm (found ++ rest) ∧ (∀ e ∈ found, Meets e.1 r) ∧
        ∀ e ∈ rest, ¬Meets e.1 r := by
  have hl : (2 : Nat) ^ 31 < limit 64 := by decide
  rw [limit_eq] at hl
  obtain ⟨st, os, m, h1, h2, h3⟩ := run_ok (M := 64) (by decide) ops (B := 0) (by omega) (Rep.init 64) nofun nofun
  refine ⟨st, os, m, h1, h2, ?_, fun r => ?_⟩
  · rcases h3 with ⟨_, h, _, h', _⟩ | ⟨_, _, _, _, _, _, h, _⟩
    · rw [h, h']; rfl
    · exact h
  obtain ⟨st', o, m', q1, q2, _⟩ := exec_ok (M := 64) (by decide) (by omega) h3 (.search r fun _ _ => true) nofun nofun
  simp only [Op.exec] at q1
  cases hs : search st r (fun _ _ => true) with
  | error e => rw [hs] at q1; cases q1
  | ok es =>
    rw [hs, ok_bind] at q1
    injection q1 with q1
    injection q1 with _ q1
    subst q1
    cases q2 with
    | search _ _ hits rest _ hp hh hr ho =>
      have : es = hits := by
        refine Classical.byContradiction fun hne => ?_
        obtain ⟨p, e, _, h⟩ := ho.2.2 hne
        cases h
      subst this
      exact ⟨es, rest, rfl, hp, hh, hr⟩

example : inserts exOps < 2 ^ 31 ∧
    (run 64 (RT.init : RT Nat Nat 1) exOps).map (fun r => (r.2.drop 10).map exShow) = .ok [[10], [], [], [], [8], [5, 6], [0, 1, 2]] := by
  decide +kernel

end Cista.RTree

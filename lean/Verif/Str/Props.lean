import Verif.Str.Ops
import Verif.Vector.Props
import Verif.Hash.Model

set_option linter.unusedSimpArgs false

/-! # C15, C16 — strings -/
namespace Cista.Str

variable {w : Nat}

/-! ## Histories -/

/-- Operations on string variables (any of `generic_string`, `string`, `string_view`). -/
inductive Op (w : Nat) where
  /-- owning construction/assignment from `len` characters of memory -/
  | assign (d b off len : Nat)
  /-- non-owning construction/assignment -/
  | reference (d b off len : Nat)
  /-- owning construction/assignment from a C string -/
  | assignC (d b off : Nat)
  /-- non-owning construction/assignment from a C string -/
  | referenceC (d b off : Nat)
  /-- owning assignment from a view onto part of variable `x` -/
  | assignSub (d x off n : Nat)
  /-- `generic_string` copy -/
  | copy (d x : Nat)
  /-- `string` copy assignment -/
  | assignString (d x : Nat)
  /-- `string_view` copy/move assignment -/
  | assignView (d x : Nat)
  /-- `string`/`generic_string` move -/
  | move (d x : Nat)
  | reset (d : Nat)
  | erase (d pos n : Nat)
  | write (d i : Nat) (c : Ch w)

/-- Execute one operation. -/
def Op.exec (L : Nat) (raw : Bool) (st : St w) : Op w → Res (St w)
  | .assign d b off len => setOwningView L st d (.mem b off) len
  | .reference d b off len => setNonOwningView L st d (.mem b off) len
  | .assignC d b off => setOwningC L st d b off
  | .referenceC d b off => setNonOwningC L st d b off
  | .assignSub d x off n => Str.assignSub L st d x off n
  | .copy d x => copyFrom L st d x
  | .assignString d x => Str.assignString L st d x
  | .assignView d x => Str.assignView L st d x
  | .move d x => moveFrom raw st d x
  | .reset d => Str.reset st d
  | .erase d pos n => Str.erase L st d pos n
  | .write d i c => Str.write st d i c

/-- Run a history. -/
def run (L : Nat) (raw : Bool) : St w → List (Op w) → Res (St w)
  | st, [] => .ok st
  | st, op :: ops => (op.exec L raw st).bind fun st' => run L raw st' ops

/-! ## Specification on texts -/

/-- The C string at an address: the characters before the first NUL. -/
def cstr (cs : List (Ch w)) (off : Nat) : List (Ch w) := (cs.drop off).takeWhile (· ≠ 0#w)

/-- Caller obligations: sources are readable, lengths fit `uint32_t`, views are only taken of variables
that do not own memory (they would dangle when the variable changes), positions are in range,
characters are only written through strings that own them. -/
def Op.Pre (ext : Ext w) (m : Nat → Var w) : Op w → Prop
  | .assign _ b off len | .reference _ b off len =>
    ∃ cs, ext b = some cs ∧ off + len ≤ cs.length ∧ len < 2 ^ 32
  | .assignC _ b off | .referenceC _ b off =>
    ∃ cs, ext b = some cs ∧ off + (cstr cs off).length < cs.length ∧ (cstr cs off).length < 2 ^ 32
  | .assignSub _ x off n => off + n ≤ (m x).text.length
  | .assignView _ x => (m x).own = false
  | .erase d pos n => pos + n ≤ (m d).text.length
  | .write d i _ => (m d).own = true ∧ i < (m d).text.length
  | _ => True

/-- The effect on the texts.  A moved-from string is empty or keeps its text. -/
inductive Op.Step (ext : Ext w) (m : Nat → Var w) : Op w → (Nat → Var w) → Prop where
  | assign {d b off len cs} (h : ext b = some cs) :
    Step ext m (.assign d b off len) (upd m d ⟨slice cs off len, true⟩)
  | reference {d b off len cs} (h : ext b = some cs) :
    Step ext m (.reference d b off len) (upd m d ⟨slice cs off len, false⟩)
  | assignC {d b off cs} (h : ext b = some cs) : Step ext m (.assignC d b off) (upd m d ⟨cstr cs off, true⟩)
  | referenceC {d b off cs} (h : ext b = some cs) :
    Step ext m (.referenceC d b off) (upd m d ⟨cstr cs off, false⟩)
  | assignSub {d x off n} : Step ext m (.assignSub d x off n) (upd m d ⟨slice (m x).text off n, true⟩)
  | copy {d x} : Step ext m (.copy d x) (upd m d (m x))
  | assignString {d x} : Step ext m (.assignString d x) (upd m d ⟨(m x).text, if d = x then (m x).own else true⟩)
  | assignView {d x} : Step ext m (.assignView d x) (upd m d ⟨(m x).text, false⟩)
  | moveSelf {d} : Step ext m (.move d d) m
  | move {d x v} (hne : d ≠ x) (hv : v.text = [] ∨ v.text = (m x).text) (ho : v.own = (m x).own) :
    Step ext m (.move d x) (upd (upd m d (m x)) x v)
  | reset {d} : Step ext m (.reset d) (upd m d ⟨[], true⟩)
  | erase {d pos n} : Step ext m (.erase d pos n)
      (upd m d ⟨(m d).text.take pos ++ (m d).text.drop (pos + n), true⟩)
  | write {d i c} : Step ext m (.write d i c) (upd m d ⟨(m d).text.set i c, true⟩)

/-- What C15 has to exclude: texts with NUL characters that are stored inline, and assignments whose
source is the assigned string itself. -/
def Op.NoBug (L : Nat) (ext : Ext w) (m : Nat → Var w) : Op w → Prop
  | .assign _ b off len | .reference _ b off len => ∀ cs, ext b = some cs → NoShortNul L (slice cs off len)
  | .assignSub d x off n => x ≠ d ∧ NoShortNul L (slice (m x).text off n)
  | .copy _ x | .assignString _ x => NoShortNul L (m x).text
  | .assignView d x => (x = d → L < (m x).text.length) ∧ NoShortNul L (m x).text
  | .erase d _ _ => NoShortNul L (m d).text
  | .write d _ c => (m d).text.length ≤ L → c ≠ 0#w
  | _ => True

/-- Every operation of the history meets its obligations (for every outcome the specification
permits). -/
def Allowed (L : Nat) (ext : Ext w) : (Nat → Var w) → List (Op w) → Prop
  | _, [] => True
  | m, op :: ops => op.Pre ext m ∧ op.NoBug L ext m ∧ ∀ m', op.Step ext m m' → Allowed L ext m' ops

/-- Outcomes the specification permits. -/
inductive Steps (ext : Ext w) : (Nat → Var w) → List (Op w) → (Nat → Var w) → Prop where
  | nil {m} : Steps ext m [] m
  | cons {m m1 m2 op ops} (h1 : op.Step ext m m1) (h2 : Steps ext m1 ops m2) : Steps ext m (op :: ops) m2

theorem noShortNul_cstr (L : Nat) (cs : List (Ch w)) (off : Nat) : NoShortNul L (cstr cs off) := by
  intro _ hm
  have := List.all_takeWhile (p := fun c => decide (c ≠ 0#w)) (l := cs.drop off)
  rw [List.all_eq_true] at this
  have := this _ hm
  simp at this

theorem exec_ok {L : Nat} (hL : L < 2 ^ 32) (raw : Bool) {ext : Ext w} {st : St w} {m : Nat → Var w}
    (h : WF L ext st m) (op : Op w) (hp : op.Pre ext m) (hb : op.NoBug L ext m) :
    ∃ st' m', op.exec L raw st = .ok st' ∧ op.Step ext m m' ∧ WF L ext st' m' := by
  cases op with
  | assign d b off len =>
    obtain ⟨cs, he, hle, hlt⟩ := hp
    have hlen : (slice cs off len).length = len := by simp [slice]; omega
    obtain ⟨st', e, w', _⟩ := setOwning_ok h d (src := .mem b off) (t := slice cs off len)
      (by intro st' _ w' _; rw [hlen]; exact w'.readExt he hle) (by intro e; cases e) (hb cs he) (by omega)
    exact ⟨st', _, by simp only [Op.exec, setOwningView, Nat.mod_eq_of_lt hlt]; rw [← e, hlen], .assign he, w'⟩
  | reference d b off len =>
    obtain ⟨cs, he, hle, hlt⟩ := hp
    have hlen : (slice cs off len).length = len := by simp [slice]; omega
    obtain ⟨st', e, w'⟩ := setNonOwning_ok h d (src := .mem b off) (t := slice cs off len)
      (by intro _ st' _ w' _; rw [hlen]; exact w'.readExt he hle)
      (by intro _; exact ⟨b, off, cs, rfl, he, by omega, by rw [hlen]⟩)
      (by intro e; cases e) (hb cs he) (by omega)
    exact ⟨st', _, by simp only [Op.exec, setNonOwningView, Nat.mod_eq_of_lt hlt]; rw [← e, hlen],
      .reference he, w'⟩
  | assignC d b off =>
    obtain ⟨cs, he, hle, hlt⟩ := hp
    have hsl : slice cs off (cstr cs off).length = cstr cs off := slice_takeWhile cs off
    obtain ⟨st', e, w', _⟩ := setOwning_ok h d (src := .mem b off) (t := cstr cs off)
      (by intro st' _ w' _; rw [w'.readExt he (by omega), hsl]) (by intro e; cases e) (noShortNul_cstr L cs off) hlt
    refine ⟨st', _, ?_, .assignC he, w'⟩
    simp only [Op.exec, setOwningC, mstrlen_ok h he hle hlt, bind, Except.bind]
    exact e
  | referenceC d b off =>
    obtain ⟨cs, he, hle, hlt⟩ := hp
    have hsl : slice cs off (cstr cs off).length = cstr cs off := slice_takeWhile cs off
    obtain ⟨st', e, w'⟩ := setNonOwning_ok h d (src := .mem b off) (t := cstr cs off)
      (by intro _ st' _ w' _; rw [w'.readExt he (by omega), hsl])
      (by intro _; exact ⟨b, off, cs, rfl, he, by omega, hsl⟩)
      (by intro e; cases e) (noShortNul_cstr L cs off) hlt
    refine ⟨st', _, ?_, .referenceC he, w'⟩
    simp only [Op.exec, setNonOwningC, mstrlen_ok h he hle hlt, bind, Except.bind]
    exact e
  | assignSub d x off n =>
    obtain ⟨hne, hn⟩ := hb
    simp only [Op.Pre] at hp
    have hlen : (slice (m x).text off n).length = n := by simp [slice]; omega
    have hlt : n < 2 ^ 32 := by have := h.short_or x hL; omega
    have key : ∀ src, src = (st.data x).add off → (src = .null → slice (m x).text off n = []) →
        ∃ st', setOwningView L st d src n = .ok st' ∧
          WF L ext st' (upd m d ⟨slice (m x).text off n, true⟩) := by
      intro src hsrc hnull
      obtain ⟨st', e, w', _⟩ := setOwning_ok h d (src := src) (t := slice (m x).text off n)
        (by intro st' _ w' hx; rw [hlen, hsrc]; exact read_other hne w' hx hp) hnull hn (by omega)
      exact ⟨st', by simp only [setOwningView, Nat.mod_eq_of_lt hlt]; rw [← e, hlen], w'⟩
    have fin : ∃ st', Str.assignSub L st d x off n = .ok st' ∧
          WF L ext st' (upd m d ⟨slice (m x).text off n, true⟩) := by
      unfold Str.assignSub
      cases hd : st.data x with
      | null =>
        have := data_null h hd
        exact key .null (by rw [hd]; rfl) (fun _ => by rw [this]; simp [slice])
      | mem b o => exact key _ (by rw [hd]; rfl) (by intro e; cases e)
      | inl y o => exact key _ (by rw [hd]; rfl) (by intro e; cases e)
    obtain ⟨st', e, w'⟩ := fin
    exact ⟨st', _, e, .assignSub, w'⟩
  | copy d x =>
    by_cases hne : x = d
    · subst hne
      exact ⟨st, _, by simp [Op.exec, copyFrom], .copy, by rw [upd_self]; exact h⟩
    · obtain ⟨st', e, w'⟩ := copyFrom_ok hL h hne hb
      exact ⟨st', _, e, .copy, w'⟩
  | assignString d x =>
    by_cases hne : x = d
    · subst hne
      refine ⟨st, _, by simp [Op.exec, Str.assignString], .assignString, ?_⟩
      rw [if_pos rfl]
      have : (⟨(m x).text, (m x).own⟩ : Var w) = m x := rfl
      rw [this, upd_self]; exact h
    · obtain ⟨st', e, w'⟩ := setOwningVar_ok hL h hne hb
      refine ⟨st', _, by simp only [Op.exec, Str.assignString, if_neg (fun e => hne e.symm : ¬ d = x)]; exact e,
        .assignString, ?_⟩
      rw [if_neg (fun e => hne e.symm)]; exact w'
  | assignView d x =>
    obtain ⟨st', e, w'⟩ := assignView_ok hL h (d := d) (x := x) hp hb.1 hb.2
    exact ⟨st', _, e, .assignView, w'⟩
  | move d x =>
    by_cases hne : d = x
    · subst hne; exact ⟨st, m, by simp [Op.exec, moveFrom], .moveSelf, h⟩
    · obtain ⟨st', v, e, hv, ho, w'⟩ := moveFrom_ok h raw hne
      exact ⟨st', _, e, .move hne hv ho, w'⟩
  | reset d =>
    obtain ⟨st', e, w', _⟩ := reset_ok h d true
    exact ⟨st', _, e, .reset, w'⟩
  | erase d pos n =>
    obtain ⟨st', e, w'⟩ := erase_ok h (d := d) (pos := pos) (n := n) hb hp
    exact ⟨st', _, e, .erase, w'⟩
  | write d i c =>
    obtain ⟨st', e, w'⟩ := write_ok h (d := d) (i := i) hp.1 hp.2 c hb
    exact ⟨st', _, e, .write, w'⟩

theorem run_ok {L : Nat} (hL : L < 2 ^ 32) (raw : Bool) {ext : Ext w} (ops : List (Op w)) {st : St w}
    {m : Nat → Var w} (h : WF L ext st m) (ha : Allowed L ext m ops) :
    ∃ st' m', run L raw st ops = .ok st' ∧ Steps ext m ops m' ∧ WF L ext st' m' := by
  induction ops generalizing st m with
  | nil => exact ⟨st, m, rfl, .nil, h⟩
  | cons op ops ih =>
    obtain ⟨hp, hb, hr⟩ := ha
    obtain ⟨st1, m1, e1, s1, w1⟩ := exec_ok hL raw h op hp hb
    obtain ⟨st2, m2, e2, s2, w2⟩ := ih w1 (hr m1 s1)
    exact ⟨st2, m2, by simp [run, e1, e2, Except.bind], .cons s1 s2, w2⟩

/-! ## Comparisons -/

theorem traitsCompare_cons (a b : Ch w) (as bs : List (Ch w)) :
    traitsCompare (a :: as) (b :: bs) =
      if a.toNat < b.toNat then -1 else if b.toNat < a.toNat then 1 else traitsCompare as bs := rfl

theorem svCompare_nil_left (b : List (Ch w)) : svCompare [] b = -(b.length : Int) := by
  simp [svCompare, traitsCompare]

theorem svCompare_nil_right (a : List (Ch w)) : svCompare a [] = (a.length : Int) := by
  cases a <;> simp [svCompare, traitsCompare]

theorem svCompare_cons (a b : Ch w) (as bs : List (Ch w)) :
    svCompare (a :: as) (b :: bs) =
      if a.toNat < b.toNat then -1 else if b.toNat < a.toNat then 1 else svCompare as bs := by
  simp only [svCompare, List.length_cons, Nat.succ_min_succ, List.take_succ_cons, traitsCompare_cons]
  split
  · simp
  · split
    · simp
    · split
      · rfl
      · omega

/-- Unsigned character order. -/
def chLt (a b : Ch w) : Bool := a.toNat < b.toNat

theorem svCompare_neg (a b : List (Ch w)) : svCompare a b < 0 ↔ Vector.lexLt chLt a b = true := by
  induction a generalizing b with
  | nil =>
    cases b with
    | nil => simp [svCompare_nil_left, Vector.lexLt]
    | cons y b => rw [svCompare_nil_left]; simp [Vector.lexLt]
  | cons x a ih =>
    cases b with
    | nil => rw [svCompare_nil_right]; simp [Vector.lexLt]; omega
    | cons y b =>
      rw [svCompare_cons]
      simp only [Vector.lexLt, chLt, decide_eq_true_eq]
      split
      · simp
      · split
        · simp
        · exact ih b

theorem svCompare_swap (a b : List (Ch w)) : svCompare b a = -svCompare a b := by
  induction a generalizing b with
  | nil => rw [svCompare_nil_left, svCompare_nil_right]; omega
  | cons x a ih =>
    cases b with
    | nil => rw [svCompare_nil_left, svCompare_nil_right]
    | cons y b =>
      rw [svCompare_cons, svCompare_cons]
      by_cases h1 : x.toNat < y.toNat
      · rw [if_neg (by omega), if_pos h1, if_pos h1]; rfl
      · by_cases h2 : y.toNat < x.toNat
        · rw [if_pos h2, if_neg h1, if_pos h2]
        · rw [if_neg h2, if_neg h1, if_neg h1, if_neg h2]; exact ih b

theorem svCompare_zero (a b : List (Ch w)) : svCompare a b = 0 ↔ a = b := by
  induction a generalizing b with
  | nil =>
    rw [svCompare_nil_left]
    cases b with
    | nil => simp
    | cons y b => simp; omega
  | cons x a ih =>
    cases b with
    | nil => rw [svCompare_nil_right]; simp; omega
    | cons y b =>
      rw [svCompare_cons]
      by_cases h1 : x.toNat < y.toNat
      · rw [if_pos h1]; simp; intro e; subst e; omega
      · by_cases h2 : y.toNat < x.toNat
        · rw [if_neg h1, if_pos h2]; simp; intro e; subst e; omega
        · rw [if_neg h1, if_neg h2, ih]
          have : x = y := BitVec.eq_of_toNat_eq (by omega)
          simp [this]

/-- Text order: `a` is smaller if it is a proper prefix or has the smaller (unsigned) character at the
first difference. -/
def TextLt (a b : List (Ch w)) : Prop :=
  ∃ k, k ≤ a.length ∧ k < b.length ∧ (∀ j < k, a[j]? = b[j]?) ∧
    (k = a.length ∨ ∃ x y, a[k]? = some x ∧ b[k]? = some y ∧ x.toNat < y.toNat)

theorem textLt_iff (a b : List (Ch w)) : TextLt a b ↔ svCompare a b < 0 := by
  rw [svCompare_neg, Vector.lexLt_iff chLt (by intro x y h; simp [chLt] at h ⊢; omega)]
  constructor
  · rintro ⟨k, h1, h2, h3, h4⟩
    refine ⟨k, h1, h2, ?_, ?_⟩
    · intro j x y hj hx hy
      have := h3 j hj
      rw [hx, hy] at this; cases this
      simp [chLt]
    · rcases h4 with h4 | ⟨x, y, hx, hy, hl⟩
      · exact Or.inl h4
      · exact Or.inr ⟨x, y, hx, hy, by simp [chLt, hl]⟩
  · rintro ⟨k, h1, h2, h3, h4⟩
    refine ⟨k, h1, h2, ?_, ?_⟩
    · intro j hj
      have hja : j < a.length := by omega
      have hjb : j < b.length := by omega
      have := h3 j a[j] b[j] hj (List.getElem?_eq_getElem hja) (List.getElem?_eq_getElem hjb)
      simp only [chLt, decide_eq_false_iff_not] at this
      rw [List.getElem?_eq_getElem hja, List.getElem?_eq_getElem hjb]
      congr 1
      exact BitVec.eq_of_toNat_eq (by omega)
    · rcases h4 with h4 | ⟨x, y, hx, hy, hl⟩
      · exact Or.inl h4
      · exact Or.inr ⟨x, y, hx, hy, by simpa [chLt] using hl⟩

/-! ## Theorems -/

/-- What the accessors must report for a string variable with text `t`. -/
structure Observes (st : St w) (x : Nat) (t : List (Ch w)) : Prop where
  size : st.size x = t.length
  view : st.view x = .ok t
  index : ∀ i (hi : i < t.length), st.read ((st.data x).add i) 1 = .ok [t[i]]

theorem observes {L : Nat} {ext : Ext w} {st : St w} {m : Nat → Var w} (h : WF L ext st m) (x : Nat) :
    Observes st x (m x).text where
  size := h.size x
  view := h.view x
  index := by
    intro i hi
    rw [h.readSub x (by omega)]
    simp only [slice]
    rw [List.drop_eq_getElem_cons hi]; rfl

/-- All variables empty, only the external memory exists. -/
def St.start (ext : Ext w) (next : Nat) : St w := ⟨⟨ext, next⟩, fun _ => .init⟩

theorem wf_start (L : Nat) (ext : Ext w) (next : Nat) (hn : ∀ b, next ≤ b → ext b = none) :
    WF L ext (St.start ext next) (fun _ => ⟨[], true⟩) where
  rep := fun _ => .null false true
  extLive := fun _ _ h => h
  fresh := hn
  inj := by intro x y b n k i j h; cases h
  owned := fun b h => Or.inl h

/-- **C15 (partial)** After every history of construction, owning and non-owning assignment (from
memory, C strings, parts of other strings), copy, move, reset, erase and character writes, over any
number of strings, for every inline capacity `L` and both pointer types: no undefined behaviour, every
string reports exactly the text the specification prescribes, no memory is leaked and none is owned
twice.  Excluded (see the `_violated` theorems): NUL characters in inline texts and assignment from a
view onto the same string. -/
theorem C15_history_partial {L : Nat} (hL : L < 2 ^ 32) (raw : Bool) (ext : Ext w) (next : Nat)
    (hn : ∀ b, next ≤ b → ext b = none) (ops : List (Op w))
    (ha : Allowed L ext (fun _ => ⟨[], true⟩) ops) :
    ∃ st m, run L raw (St.start ext next) ops = .ok st ∧ Steps ext (fun _ => ⟨[], true⟩) ops m ∧
      (∀ x, Observes st x (m x).text) ∧
      (∀ b, st.mem.blocks b ≠ none → ext b = none → ∃ x, st.data x = .mem b 0 ∧
        ∀ y n i, st.strs y = .heap true n (some (b, i)) → y = x) := by
  obtain ⟨st, m, e, s, h⟩ := run_ok hL raw ops (wf_start L ext next hn) ha
  refine ⟨st, m, e, s, fun x => observes h x, ?_⟩
  intro b hb he
  rcases h.owned b hb with h1 | ⟨x, n, hx⟩
  · exact absurd he h1
  · exact ⟨x, by simp [St.data, hx], fun y k i hy => h.inj y x b k n i 0 hy hx⟩

/-- A 20 character block `"aaaa…"`, a terminated C string `"xyz"` and a block with a NUL. -/
def demoExt : Ext 8 := fun b =>
  if b = 0 then some (List.replicate 20 97#8)
  else if b = 1 then some [120#8, 121#8, 122#8, 0#8]
  else if b = 2 then some [97#8, 0#8, 98#8]
  else none

/-- Non-vacuity (C15): inline, heap and referenced texts, erase on a reference, moves. -/
example : (run 15 false (St.start demoExt 3)
    [.assign 0 0 0 20, .reference 1 0 2 17, .assignC 2 1 0, .erase 1 3 4, .copy 3 1, .move 4 0, .move 5 2,
     .assignSub 6 3 1 2, .write 4 0 99#8, .reset 5]).bind (fun st => do
      let a ← st.view 1; let b ← st.view 4; let c ← st.view 6; let d ← st.view 0
      return (a.length, b.take 2, c, d)) = .ok (13, [99#8, 97#8], [97#8, 97#8], []) := by decide +kernel

example : Allowed 15 demoExt (fun _ => ⟨[], true⟩)
    [.assign 0 0 0 20, .assignString 1 0, .erase 1 3 14] := by
  refine ⟨⟨_, rfl, by decide, by decide⟩, ?_, ?_⟩
  · intro cs h; simp [demoExt] at h; subst h; intro h; simp [slice] at h
  · intro m' h; cases h with
    | assign h =>
      simp [demoExt] at h; subst h
      refine ⟨trivial, ?_, ?_⟩
      · intro h; simp [slice, upd] at h
      · intro m' h; cases h with
        | assignString =>
          refine ⟨?_, ?_, ?_⟩
          · simp [Op.Pre, upd, slice]
          · intro h; simp [slice, upd] at h
          · intro _ _; trivial

/-- **C15 violated** A text of at most `L` characters that contains a NUL is cut off at the first NUL:
for every such text, after owning assignment the string reports only the part in front of it. -/
theorem C15_embedded_nul_violated {L : Nat} (ext : Ext w) (st : St w) (m : Nat → Var w) (h : WF L ext st m)
    (d b off len : Nat) (cs : List (Ch w)) (he : ext b = some cs) (hle : off + len ≤ cs.length)
    (hpos : 0 < len) (hL : len ≤ L) (hlt : len < 2 ^ 32) :
    ∃ st', setOwningView L st d (.mem b off) len = .ok st' ∧
      st'.view d = .ok ((slice cs off len).takeWhile (· ≠ 0#w)) := by
  obtain ⟨st1, e1, w1, hi, _⟩ := reset_ok h d true
  have hlen : (slice cs off len).length = len := by simp [slice]; omega
  unfold setOwningView setOwning
  rw [Nat.mod_eq_of_lt hlt, e1]
  simp only [bind, Except.bind, pure, Except.pure]
  rw [if_neg (by simp; omega), w1.readExt he hle]
  simp only [if_pos hL]
  refine ⟨_, rfl, ?_⟩
  generalize hS : slice cs off len = s at hlen
  have htw : ∀ k, ((s ++ List.replicate k 0#w).takeWhile (· ≠ 0#w)) = s.takeWhile (· ≠ 0#w) := by
    intro k
    clear hS hlen
    induction s with
    | nil => cases k <;> simp [List.replicate_succ]
    | cons a s ih =>
      rw [List.cons_append, List.takeWhile_cons, List.takeWhile_cons]
      split
      · rw [ih]
      · rfl
  have hp : (s.takeWhile (· ≠ 0#w)) <+: s := List.takeWhile_prefix _
  have hpl := hp.length_le
  simp only [St.view, St.read, readLoc, St.data, St.size, St.inl, put_same, htw]
  rw [if_pos (by rw [List.length_append, Nat.zero_add]; omega)]
  simp only [slice, List.drop_zero]
  rw [List.take_append_of_le_length hpl, ← List.prefix_iff_eq_take.1 hp]

/-- Non-vacuity: `"a\0b"` is stored as `"a"`. -/
example : (setOwningView 15 (St.start demoExt 3) 0 (.mem 2 0) 3).bind (·.view 0) = .ok [97#8] := by
  decide +kernel

/-- **C15 violated** Assigning a string from a view onto itself (`s = std::string_view{s}`) reads
destroyed memory: for every owning heap string, and for every inline string. -/
theorem C15_self_view_violated {L : Nat} (ext : Ext w) (st : St w) (m : Nat → Var w) (h : WF L ext st m)
    (d off n : Nat) (hown : ∃ k b, st.strs d = .heap true k (some (b, 0)) ∨ ∃ s, st.strs d = .sso s)
    (hn : 0 < n) (hlt : n < 2 ^ 32) : Str.assignSub L st d d off n = .error .ub := by
  obtain ⟨k, b, hs | ⟨s, hs⟩⟩ := hown
  · have hb : ∃ cs, st.mem.blocks b = some cs := by
      have r := h.rep d
      rw [hs] at r
      generalize m d = v at r
      cases r with
      | owned _ cs _ hb => exact ⟨cs, hb⟩
    obtain ⟨cs, hb⟩ := hb
    simp only [Str.assignSub, St.data, hs, setOwningView, Nat.mod_eq_of_lt hlt, setOwning, Str.reset, SMem.free, hb,
      bind, Except.bind, pure, Except.pure, if_true]
    rw [if_neg (by simp; omega)]
    simp [St.read, readLoc, St.put, SMem.setBlk]
  · simp only [Str.assignSub, St.data, hs, setOwningView, Nat.mod_eq_of_lt hlt, setOwning, Str.reset,
      bind, Except.bind, pure, Except.pure]
    rw [if_neg (by simp; omega)]
    simp [St.read, readLoc, St.inl, St.put, Str.init]

/-- **C15 violated** Assigning a `string_view` to itself destroys it when its text is inline. -/
theorem C15_view_self_assign_violated {L : Nat} (st : St w) (d : Nat) (s : List (Ch w))
    (hs : st.strs d = .sso s) (hne : (s.takeWhile (· ≠ 0#w)) ≠ [])
    (hL : (s.takeWhile (· ≠ 0#w)).length ≤ L) : Str.assignView L st d d = .error .ub := by
  have hsz : st.size d = (s.takeWhile (· ≠ 0#w)).length := by simp only [St.size, hs]
  have hpos : (s.takeWhile (· ≠ 0#w)).length ≠ 0 := by
    intro e; exact hne (List.length_eq_zero_iff.1 e)
  unfold Str.assignView
  rw [hsz]
  generalize (s.takeWhile (· ≠ 0#w)).length = n at hpos hL
  have hr : Str.reset st d = .ok (st.put d .init) := by simp only [Str.reset, hs]
  have hr2 : Str.reset (st.put d .init) d = .ok (st.put d .init) := reset_init _ _ (put_same _ _ _)
  simp only [setNonOwning, hr, St.data, hs, bind, Except.bind, pure, Except.pure]
  rw [if_neg (by simp [hpos]), if_pos hL]
  simp only [setOwning, hr2, bind, Except.bind, pure, Except.pure]
  rw [if_neg (by simp [hpos])]
  simp [St.read, readLoc, St.inl, St.put, Str.init]

/-- Non-vacuity: an inline view `"xyz"`. -/
example : ((setNonOwningC 15 (St.start demoExt 3) 0 1 0).bind (fun st => Str.assignView 15 st 0 0)).map
    (fun _ => ()) = .error .ub := by decide +kernel

/-- **C15 violated** The length of a `std::string` is truncated to 32 bits: a text of exactly `2^32`
characters is stored as the empty string. -/
theorem C15_length_truncated_violated {L : Nat} (ext : Ext w) (st : St w) (m : Nat → Var w)
    (h : WF L ext st m) (d : Nat) (src : Loc) :
    ∃ st', setOwningView L st d src (2 ^ 32) = .ok st' ∧ st'.view d = .ok [] := by
  obtain ⟨st1, e1, w1, hi, _⟩ := reset_ok h d true
  refine ⟨st1, by simp [setOwningView, setOwning, e1, bind, Except.bind, pure, Except.pure], ?_⟩
  have := w1.view d
  rwa [upd_same] at this

/-! ### C16 -/

/-- **C16** In every state reached by such a history — so for every combination of inline, heap and
referenced representations — all six comparison operators agree with equality and lexicographic order
of the texts, `starts_with`/`ends_with` with being a prefix/suffix, and the hash value (8-bit
characters) is a function of the text. -/
theorem C16_comparisons {L : Nat} (hL : L < 2 ^ 32) (raw : Bool) (ext : Ext w) (next : Nat)
    (hn : ∀ b, next ≤ b → ext b = none) (ops : List (Op w))
    (ha : Allowed L ext (fun _ => ⟨[], true⟩) ops) :
    ∃ st m, run L raw (St.start ext next) ops = .ok st ∧ Steps ext (fun _ => ⟨[], true⟩) ops m ∧
      (∀ x y, ∃ eq ne lt gt le ge : Bool,
        cmpOp svEq st x y = .ok eq ∧ cmpOp svNe st x y = .ok ne ∧ cmpOp svLt st x y = .ok lt ∧
        cmpOp svGt st x y = .ok gt ∧ cmpOp svLe st x y = .ok le ∧ cmpOp svGe st x y = .ok ge ∧
        (eq = true ↔ (m x).text = (m y).text) ∧ (ne = true ↔ (m x).text ≠ (m y).text) ∧
        (lt = true ↔ TextLt (m x).text (m y).text) ∧ (gt = true ↔ TextLt (m y).text (m x).text) ∧
        (le = true ↔ TextLt (m x).text (m y).text ∨ (m x).text = (m y).text) ∧
        (ge = true ↔ TextLt (m y).text (m x).text ∨ (m x).text = (m y).text)) ∧
      (∀ x p, ∃ s e : Bool, startsWith st x p = .ok s ∧ endsWith st x p = .ok e ∧
        (s = true ↔ ∃ r, (m x).text = p ++ r) ∧ (e = true ↔ ∃ r, (m x).text = r ++ p)) ∧
      (∀ x c, ∃ s e : Bool, startsWithCh st x c = .ok s ∧ endsWithCh st x c = .ok e ∧
        (s = true ↔ (m x).text.head? = some c) ∧ (e = true ↔ (m x).text.getLast? = some c)) := by
  obtain ⟨st, m, e, s, h⟩ := run_ok hL raw ops (wf_start L ext next hn) ha
  refine ⟨st, m, e, s, ?_, ?_, ?_⟩
  · intro x y
    simp only [cmpOp, h.view, bind, Except.bind, pure, Except.pure]
    refine ⟨_, _, _, _, _, _, rfl, rfl, rfl, rfl, rfl, rfl, ?_, ?_, ?_, ?_, ?_, ?_⟩
    · simp only [svEq, Bool.and_eq_true, decide_eq_true_eq, svCompare_zero]
      exact ⟨fun h => h.2, fun h => ⟨by rw [h], h⟩⟩
    · simp only [svNe, svEq, Bool.not_eq_true', Bool.and_eq_false_iff, decide_eq_false_iff_not, svCompare_zero]
      constructor
      · rintro (h | h) e
        · rw [e] at h; exact h rfl
        · exact h e
      · intro h; exact Or.inr h
    · rw [textLt_iff]; simp [svLt]
    · rw [textLt_iff, svCompare_swap]; simp [svGt]
    · rw [textLt_iff, ← svCompare_zero]; simp [svLe]; omega
    · rw [textLt_iff, svCompare_swap, ← svCompare_zero]; simp [svGe]; omega
  · intro x p
    have hs : ∃ s : Bool, startsWith st x p = .ok s ∧ (s = true ↔ ∃ r, (m x).text = p ++ r) := by
      unfold startsWith
      rw [h.size]
      by_cases h1 : p.length > (m x).text.length
      · rw [if_pos h1]
        refine ⟨_, rfl, ?_⟩
        simp only [Bool.false_eq_true, false_iff]
        rintro ⟨r, e⟩
        rw [e] at h1; simp at h1; omega
      · rw [if_neg h1]
        by_cases h2 : p.length = 0
        · rw [if_pos h2]
          refine ⟨_, rfl, ?_⟩
          have : p = [] := List.length_eq_zero_iff.1 h2
          subst this
          exact ⟨fun _ => ⟨_, rfl⟩, fun _ => rfl⟩
        · rw [if_neg h2, if_neg (by omega)]
          have hr := h.readSub x (off := 0) (n := p.length) (by omega)
          rw [add_zero] at hr
          rw [hr]
          refine ⟨_, rfl, ?_⟩
          simp only [slice, List.drop_zero, decide_eq_true_eq]
          constructor
          · intro e
            refine ⟨(m x).text.drop p.length, ?_⟩
            have := List.take_append_drop p.length (m x).text
            rw [← e] at this
            exact this.symm
          · rintro ⟨r, e⟩; rw [e, List.take_left' rfl]
    have he : ∃ s : Bool, endsWith st x p = .ok s ∧ (s = true ↔ ∃ r, (m x).text = r ++ p) := by
      unfold endsWith
      rw [h.size]
      by_cases h1 : p.length > (m x).text.length
      · rw [if_pos h1]
        refine ⟨_, rfl, ?_⟩
        simp only [Bool.false_eq_true, false_iff]
        rintro ⟨r, e⟩
        rw [e] at h1; simp at h1; omega
      · rw [if_neg h1]
        by_cases h2 : p.length = 0
        · rw [if_pos h2]
          refine ⟨_, rfl, ?_⟩
          have : p = [] := List.length_eq_zero_iff.1 h2
          subst this
          exact ⟨fun _ => ⟨(m x).text, by simp⟩, fun _ => rfl⟩
        · rw [if_neg h2, if_neg (by omega)]
          have hr := h.readSub x (off := (m x).text.length - p.length) (n := p.length) (by omega)
          rw [hr]
          refine ⟨_, rfl, ?_⟩
          have hsl : slice (m x).text ((m x).text.length - p.length) p.length =
              (m x).text.drop ((m x).text.length - p.length) := by
            simp only [slice]; exact List.take_of_length_le (by simp; omega)
          rw [hsl]
          simp only [decide_eq_true_eq]
          constructor
          · intro e
            refine ⟨(m x).text.take ((m x).text.length - p.length), ?_⟩
            have := List.take_append_drop ((m x).text.length - p.length) (m x).text
            rw [← e] at this
            exact this.symm
          · rintro ⟨r, e⟩
            rw [e, List.length_append, Nat.add_sub_cancel, List.drop_left' rfl]
    obtain ⟨s, e1, e2⟩ := hs
    obtain ⟨e, e3, e4⟩ := he
    exact ⟨s, e, e1, e3, e2, e4⟩
  · intro x c
    unfold startsWithCh endsWithCh
    rw [h.size]
    by_cases h0 : (m x).text.length = 0
    · rw [if_pos h0, if_pos h0]
      have : (m x).text = [] := List.length_eq_zero_iff.1 h0
      exact ⟨_, _, rfl, rfl, by simp [this], by simp [this]⟩
    · rw [if_neg h0, if_neg h0]
      have h1 := (observes h x).index 0 (by omega)
      have h2 := (observes h x).index ((m x).text.length - 1) (by omega)
      rw [add_zero] at h1
      rw [h1, h2]
      refine ⟨_, _, rfl, rfl, ?_, ?_⟩
      · simp only [decide_eq_true_eq, List.cons.injEq, and_true, List.head?_eq_getElem?]
        rw [List.getElem?_eq_getElem (by omega)]; simp
      · simp only [decide_eq_true_eq, List.cons.injEq, and_true, List.getLast?_eq_getElem?]
        rw [List.getElem?_eq_getElem (by omega)]; simp

/-- **C16** The order on texts is a strict total order. -/
theorem C16_total_order (a b c : List (Ch w)) :
    ¬ TextLt a a ∧ (TextLt a b → TextLt b c → TextLt a c) ∧ (TextLt a b ∨ a = b ∨ TextLt b a) ∧
    (TextLt a b → ¬ TextLt b a) := by
  have trans : ∀ a b c : List (Ch w), svCompare a b < 0 → svCompare b c < 0 → svCompare a c < 0 := by
    intro a
    induction a with
    | nil =>
      intro b c h1 h2
      cases c with
      | nil => rw [svCompare_nil_right] at h2; omega
      | cons z c => rw [svCompare_nil_left]; simp
    | cons x a ih =>
      intro b c h1 h2
      cases b with
      | nil => rw [svCompare_nil_right] at h1; simp at h1; omega
      | cons y b =>
        cases c with
        | nil => rw [svCompare_nil_right] at h2; simp at h2; omega
        | cons z c =>
          rw [svCompare_cons] at h1 h2 ⊢
          by_cases e1 : x.toNat < z.toNat
          · rw [if_pos e1]; omega
          · rw [if_neg e1]
            by_cases a1 : x.toNat < y.toNat
            · rw [if_neg (by omega), if_pos (by omega)] at h2; omega
            · rw [if_neg a1] at h1
              by_cases a2 : y.toNat < x.toNat
              · rw [if_pos a2] at h1; omega
              · rw [if_neg a2] at h1
                by_cases a3 : z.toNat < y.toNat
                · rw [if_neg (by omega), if_pos a3] at h2; omega
                · rw [if_neg (by omega), if_neg a3] at h2
                  rw [if_neg (by omega)]
                  exact ih b c h1 h2
  simp only [textLt_iff]
  refine ⟨?_, trans a b c, ?_, ?_⟩
  · rw [(svCompare_zero a a).2 rfl]; omega
  · have := svCompare_swap a b
    rcases Int.lt_trichotomy (svCompare a b) 0 with h | h | h
    · exact Or.inl h
    · exact Or.inr (Or.inl ((svCompare_zero a b).1 h))
    · exact Or.inr (Or.inr (by omega))
  · have := svCompare_swap a b
    intro h; omega

/-- hashing.h:103-108 for a string: hash of the characters, the seed if empty. -/
def hashStr (st : St 8) (x : Nat) (seed : Hash.HashT) : Res Hash.HashT :=
  if st.size x = 0 then .ok seed else do
    let v ← st.read (st.data x) (st.size x)
    return Hash.fnv seed v

/-- **C16** Strings with equal text hash equally, whatever their representation and history. -/
theorem C16_hash {L : Nat} (hL : L < 2 ^ 32) (raw : Bool) (ext : Ext 8) (next : Nat)
    (hn : ∀ b, next ≤ b → ext b = none) (ops : List (Op 8))
    (ha : Allowed L ext (fun _ => ⟨[], true⟩) ops) :
    ∃ st m, run L raw (St.start ext next) ops = .ok st ∧ Steps ext (fun _ => ⟨[], true⟩) ops m ∧
      ∀ x y seed, (m x).text = (m y).text → hashStr st x seed = hashStr st y seed ∧
        (hashStr st x seed).isOk = true := by
  obtain ⟨st, m, e, s, h⟩ := run_ok hL raw ops (wf_start L ext next hn) ha
  refine ⟨st, m, e, s, ?_⟩
  have key : ∀ x seed, hashStr st x seed = .ok (Hash.fnv seed (m x).text) := by
    intro x seed
    unfold hashStr
    rw [h.size, h.read]
    split
    · next h0 => rw [List.length_eq_zero_iff.1 h0]; rfl
    · rfl
  intro x y seed hxy
  rw [key, key, hxy]
  exact ⟨rfl, rfl⟩

/-- Non-vacuity (C16): equal texts in different representations (heap shrunk by `erase`, inline). -/
example : (run 15 false (St.start demoExt 3) [.assign 0 0 0 20, .erase 0 0 18, .assign 1 0 0 2]).bind (fun st => do
    let r ← cmpOp svEq st 0 1
    return (r, (st.strs 0).isShort, (st.strs 1).isShort)) = .ok (true, false, true) := by decide +kernel

end Cista.Str

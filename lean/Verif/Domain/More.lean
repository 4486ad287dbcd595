import Verif.MM.Props
import Verif.Sum.Variant
import Verif.Sum.Tuple
import Verif.Sum.Optional
import Verif.Ser.Demo
import Verif.Ser.Violated

/-!
# More restricted uses with complete claims

As in `Verif.Domain.Containers`: each theorem names a restricted use and shows the complete claim for it.
-/
set_option linter.unusedSimpArgs false

namespace Cista.MM

variable {α : Type}

/-- Everything but `erase(key)`. -/
def Op.keepsCount : Op α → Bool
  | .eraseKey _ => false
  | _ => true

theorem lost_zero (K : Nat) : ∀ (ops : List (Op α)) (S : SpecState α), S.lost = 0 → ops.all Op.keepsCount = true →
    (ops.foldl (Op.spec K) S).lost = 0
  | [], _, h, _ => h
  | op :: ops, S, h, hk => by
    simp only [List.all_cons, Bool.and_eq_true] at hk
    refine lost_zero K ops _ ?_ hk.2
    unfold Op.spec
    split
    · exact h
    · cases op <;> simp_all [Op.keepsCount, Op.lost]

/-- C68: a mutable multimap used without `erase(key)` is a growing list of lists, and `element_count()` is the number of stored
elements. -/
theorem C68_multimap {W K : Nat} (hW : W = 32 ∨ W = 64) (hK : K < W) (dflt : α) (ops : List (Op α))
    (hk : ops.all Op.keepsCount = true) (hA : Allowed W K ops start) (hc : (specRun K ops).cost ≤ 2 ^ 32) :
    ∃ m, run W K dflt ops (Map.empty K) = .ok (m, (specRun K ops).thrown) ∧
      m.index.length = (specRun K ops).lists.length ∧ m.iterate = .ok (specRun K ops).lists ∧
      (∀ i, m.at i = match (specRun K ops).lists[i]? with
        | some xs => .ok xs
        | none => .error .exn) ∧
      m.elementCount W = ((specRun K ops).lists.map List.length).sum % 2 ^ W := by
  obtain ⟨m, h1, h2, h3, h4, _⟩ := C18_history hW hK dflt ops hA hc
  exact ⟨m, h1, h2, h3, h4, C20_element_count_partial hW hK dflt hA hc (lost_zero K ops _ rfl hk) h1⟩

example : ([.index 2, .push 0 7, .push 2 8, .insert 2 0 9, .resize 1 3 5, .erase 1 0, .popBack 2, .push 9 1] : List (Op Nat)).all
      Op.keepsCount = true ∧
    Allowed 32 4 ([.index 2, .push 0 7, .push 2 8, .insert 2 0 9, .resize 1 3 5, .erase 1 0, .popBack 2] : List (Op Nat)) start ∧
    (specRun 4 ([.index 2, .push 0 7, .push 2 8, .insert 2 0 9, .resize 1 3 5, .erase 1 0, .popBack 2] : List (Op Nat))).lists =
      [[7], [5, 5], [9]] := by
  refine ⟨by decide, ?_, by decide⟩
  simp [Allowed, start, Op.Pre, Op.spec, Op.throws, Op.needs, Op.lists, ensure, bucket]

end Cista.MM

namespace Cista.Variant

variable {α : Type} {e : Env α}

/-- Operations on variants that always hold a value: no default construction, no copy assignment, values are assigned as rvalues. -/
def Op.simple : Op α → Bool
  | .default => false
  | .copyAssign _ _ => false
  | .assign _ cat _ _ => cat == .rvalue
  | _ => true

/-- The variants named exist (and are different), the types are alternatives. -/
def Op.Fits (e : Env α) (n : Nat) : Op α → Prop
  | .default => True
  | .make t _ => t ∈ e.tys
  | .copy j => j < n
  | .move j => j < n
  | .assign i _ t _ => t ∈ e.tys ∧ i < n
  | .copyAssign i j => i < n ∧ j < n
  | .moveAssign i j => i ≠ j ∧ i < n ∧ j < n
  | .emplace i t _ => t ∈ e.tys ∧ i < n
  | .emplaceIdx i k _ => k < e.tys.length ∧ i < n
  | .swap i j => i ≠ j ∧ i < n ∧ j < n
  | .destroy i => i < n

def Usable (e : Env α) : List (SVar α) → List (Op α) → Prop
  | _, [] => True
  | S, op :: ops => op.Fits e S.length ∧ Usable e (op.spec e S) ops

def Held (S : List (SVar α)) : Prop := none ∉ S

theorem Held.get {S : List (SVar α)} (h : Held S) {i : Nat} (hi : i < S.length) : ∃ a, S[i]? = some (some a) := by
  cases hs : S[i]? with
  | none => rw [List.getElem?_eq_none_iff] at hs; omega
  | some s =>
    cases s with
    | none => exact absurd (List.mem_of_getElem? hs) h
    | some a => exact ⟨a, rfl⟩

theorem Held.append {S : List (SVar α)} (h : Held S) (a : TypeId × α) : Held (S ++ [some a]) := by
  intro hm
  rcases List.mem_append.1 hm with hm | hm
  · exact h hm
  · cases List.mem_singleton.1 hm

theorem Held.set {S : List (SVar α)} (h : Held S) (i : Nat) (a : TypeId × α) : Held (S.set i (some a)) := by
  intro hm
  rcases List.mem_or_eq_of_mem_set hm with hm | hm
  · exact h hm
  · cases hm

theorem Held.modify {S : List (SVar α)} (h : Held S) (i : Nat) (f : TypeId × α → TypeId × α) :
    Held (S.modify i fun v => v.map f) := by
  by_cases hi : i < S.length
  · obtain ⟨a, ha⟩ := h.get hi
    rw [modify_set' ha]
    exact h.set i _
  · rw [List.modify_eq_self (by omega)]; exact h

theorem simple_step {S : List (SVar α)} (h : Held S) {op : Op α} (hs : op.simple = true) (hf : op.Fits e S.length) :
    op.Pre e S ∧ Held (op.spec e S) := by
  cases op with
  | default => cases hs
  | copyAssign i j => cases hs
  | make t x => exact ⟨hf, h.append _⟩
  | copy j =>
    obtain ⟨a, ha⟩ := h.get (i := j) hf
    exact ⟨⟨a, ha⟩, by simpa only [Op.spec, ha, Option.join_some] using h.append a⟩
  | move j =>
    obtain ⟨a, ha⟩ := h.get (i := j) hf
    exact ⟨⟨a, ha⟩, by simpa only [Op.spec, ha, Option.join_some] using (h.modify j _).append a⟩
  | assign i cat t x =>
    obtain ⟨a, ha⟩ := h.get hf.2
    have hc : cat = .rvalue := by simpa [Op.simple] using hs
    exact ⟨⟨hf.1, _, ha, Or.inl hc⟩, h.set i _⟩
  | moveAssign i j =>
    obtain ⟨a, ha⟩ := h.get hf.2.1
    obtain ⟨b, hb⟩ := h.get hf.2.2
    exact ⟨⟨hf.1, _, b, ha, hb⟩, by simpa only [Op.spec, hb, Option.join_some] using (h.modify j _).set i b⟩
  | emplace i t x => exact ⟨hf, h.set i _⟩
  | emplaceIdx i k x =>
    refine ⟨hf, ?_⟩
    simp only [Op.spec, List.getElem?_eq_getElem hf.1, Option.map]
    exact h.set i _
  | swap i j =>
    obtain ⟨a, ha⟩ := h.get hf.2.1
    obtain ⟨b, hb⟩ := h.get hf.2.2
    exact ⟨⟨hf.1, a, b, ha, hb⟩, by simpa only [Op.spec, ha, hb, Option.join_some] using (h.set j a).set i b⟩
  | destroy i => exact ⟨hf, fun hm => h (List.mem_of_mem_eraseIdx hm)⟩

theorem simple_run : ∀ (ops : List (Op α)) {S : List (SVar α)}, Held S → ops.all Op.simple = true → Usable e S ops →
    Allowed e S ops ∧ Held (specRun e S ops)
  | [], _, h, _, _ => ⟨trivial, h⟩
  | op :: ops, S, h, hs, ⟨hf, hr⟩ => by
    simp only [List.all_cons, Bool.and_eq_true] at hs
    obtain ⟨h1, h2⟩ := simple_step h hs.1 hf
    obtain ⟨h3, h4⟩ := simple_run ops h2 hs.2 hr
    exact ⟨⟨h1, h3⟩, h4⟩

/-- C69: variants that are never default constructed, and are changed only by emplacing, moving, swapping and assigning rvalues, always
hold the value last put there; comparing any two of them is a strict total order that agrees with equality. -/
theorem C69_variant (ok : e.Ok) (ops : List (Op α)) (hs : ops.all Op.simple = true) (hu : Usable e [] ops) (c : Cmp α) (hc : c.Total) :
    ∃ vs, run e [] ops = .ok vs ∧ vs.length = (specRun e [] ops).length ∧
      (∀ (i : Nat) (v : Var α) (s : SVar α), vs[i]? = some v → (specRun e [] ops)[i]? = some s → s ≠ none ∧ Shows e v s) ∧
      (∀ (i j : Nat) (v w : Var α) (s u : SVar α), vs[i]? = some v → vs[j]? = some w → (specRun e [] ops)[i]? = some s →
        (specRun e [] ops)[j]? = some u →
        ∃ lt eq gt : Bool, v.lt e c w = .ok lt ∧ v.eq e c w = .ok eq ∧ v.gt e c w = .ok gt ∧ v.ne e c w = .ok (!eq) ∧
          v.le e c w = .ok (!gt) ∧ v.ge e c w = .ok (!lt) ∧ w.lt e c v = .ok gt ∧ (eq = true ↔ s = u) ∧
          (lt, eq, gt) ∈ [(true, false, false), (false, true, false), (false, false, true)]) ∧
      ∀ u ∈ vs, ∀ v ∈ vs, ∀ w ∈ vs, u.lt e c v = .ok true → v.lt e c w = .ok true → u.lt e c w = .ok true := by
  obtain ⟨ha, hh⟩ := simple_run ops (S := []) (fun h => by cases h) hs hu
  obtain ⟨vs, e1, h⟩ := run_ok ok ops (vs := []) (S := []) ⟨rfl, by simp⟩ ha
  have hne : ∀ {i : Nat} {s : SVar α}, (specRun e [] ops)[i]? = some s → s ≠ none := fun hi hn =>
    hh (by subst hn; exact List.mem_of_getElem? hi)
  have hvok : ∀ v ∈ vs, ∃ s, VOk e v s := by
    intro v hv
    obtain ⟨i, hi, rfl⟩ := List.getElem_of_mem hv
    have hi' : i < (specRun e [] ops).length := h.len ▸ hi
    exact ⟨_, h.each i _ _ (List.getElem?_eq_getElem hi) (List.getElem?_eq_getElem hi')⟩
  refine ⟨vs, e1, h.len, fun i v s h1 h2 => ⟨hne h2, (h.each i v s h1 h2).shows ok⟩, fun i j v w s u h1 h2 h3 h4 => ?_,
    fun u hu v hv w hw h1 h2 => ?_⟩
  · obtain ⟨lt, eq, gt, q1, q2, q3, q4, q5, q6, q7, _, q8, q9⟩ := C27_total_partial ok c hc v w s u (h.each i v s h1 h3)
      (h.each j w u h2 h4) (Or.inl (hne h3))
    exact ⟨lt, eq, gt, q1, q2, q3, q4, q5, q6, q7, q8, q9⟩
  · obtain ⟨s1, k1⟩ := hvok u hu
    obtain ⟨s2, k2⟩ := hvok v hv
    obtain ⟨s3, k3⟩ := hvok w hw
    exact C27_transitive ok c hc u v w s1 s2 s3 k1 k2 k3 h1 h2

example : ([.make 10 5, .make 20 5, .assign 0 .rvalue 20 8, .move 1, .swap 0 2, .moveAssign 2 0, .emplaceIdx 0 2 4, .copy 0] :
      List (Op Nat)).all Op.simple = true ∧
    Usable env3 [] [.make 10 5, .make 20 5, .assign 0 .rvalue 20 8, .move 1, .swap 0 2, .moveAssign 2 0, .emplaceIdx 0 2 4, .copy 0] ∧
    (run env3 [] [.make 10 5, .make 20 5, .assign 0 .rvalue 20 8, .move 1, .swap 0 2, .moveAssign 2 0, .emplaceIdx 0 2 4, .copy 0]) =
      .ok [⟨2, some (30, 4)⟩, ⟨1, some (20, 0)⟩, ⟨1, some (20, 5)⟩, ⟨2, some (30, 4)⟩] := by
  refine ⟨by decide, ?_, by decide +kernel⟩
  simp [Usable, Op.Fits, Op.spec, env3]

end Cista.Variant

namespace Cista.Tuple

variable {α : Type}

/-- C70: on tuples of the same arity whose members are totally ordered, the six comparison operators form a strict total order,
the lexicographic one. -/
theorem C70_tuple (eqf ltf : Nat → α → α → Bool) (h : Total eqf ltf)
    (ht : ∀ i x y z, ltf i x y = true → ltf i y z = true → ltf i x z = true)
    (hn : ∀ i x y z, ltf i x y = false → ltf i y z = false → ltf i x z = false) (a b c : List α) (hab : a.length = b.length) :
    (eq eqf 0 a b = true ↔ ∀ i x y, a[i]? = some x → b[i]? = some y → eqf i x y = true) ∧
      (neOp eqf a b = !eq eqf 0 a b) ∧ (ltOp ltf a b = true ↔ Lex ltf a b) ∧ gtOp ltf a b = ltOp ltf b a ∧
      (leOp ltf a b = !gtOp ltf a b) ∧ (geOp ltf a b = !ltOp ltf a b) ∧
      (ltOp ltf a b, eq eqf 0 a b, gtOp ltf a b) ∈ [(true, false, false), (false, true, false), (false, false, true)] ∧
      (ltOp ltf a b = true → ltOp ltf b c = true → ltOp ltf a c = true) := by
  obtain ⟨l1, l2, l3, l4⟩ := C29_lexicographic ltf a b
  have l5 := (C29_lexicographic ltf b a).1
  obtain ⟨e1, e2⟩ := C29_equality eqf a b hab
  refine ⟨e1, e2, l1, ?_, ?_, ?_, C29_trichotomy eqf ltf h a b hab, C29_transitive ltf ht hn a b c⟩
  · rw [Bool.eq_iff_iff, l2, l5]
  · rw [Bool.eq_iff_iff, l3, Bool.not_eq_true', ← Bool.not_eq_true, l2]
  · rw [Bool.eq_iff_iff, l4, Bool.not_eq_true', ← Bool.not_eq_true, l1]

example : Total (fun _ (x y : Nat) => x == y) (fun _ x y => decide (x < y)) ∧
    (∀ (_ : Nat) (x y z : Nat), decide (x < y) = true → decide (y < z) = true → decide (x < z) = true) ∧
    (∀ (_ : Nat) (x y z : Nat), decide (x < y) = false → decide (y < z) = false → decide (x < z) = false) ∧
    ltOp (fun _ (x y : Nat) => decide (x < y)) [1, 3] [2, 0] = true := by
  refine ⟨⟨?_, ?_, ?_, ?_⟩, ?_, ?_, by decide⟩ <;>
    simp only [decide_eq_true_eq, decide_eq_false_iff_not, beq_eq_false_iff_ne, beq_iff_eq] <;> omega

end Cista.Tuple

namespace Cista.Optional

variable {α : Type}

/-- C71: optionals of trivially destructible types, copied from const optionals only, show the value stored last. -/
theorem C71_optional {e : Env α} (ht : e.triv = true) (ops : List (Op α)) (ha : Allowed e [] ops) :
    ∃ os, run e [] ops = .ok os ∧ os.length = (specRun e [] ops).length ∧
      ∀ (i : Nat) (o : Opt α) (s : Option α), os[i]? = some o → (specRun e [] ops)[i]? = some s → Shows o s :=
  C53_history_partial ht ops ha

example : envInt.triv = true ∧
    Allowed envInt [] [.empty, .make 5, .copyAssign 0 1, .move 0, .moveAssign 1 2, .empty, .copyAssign 0 3, .destroy 1] := by
  simp [Allowed, Op.Pre, Op.spec, envInt]

end Cista.Optional

namespace Cista.Ser

open Cista.Arith (Mode)
open Cista.Hash (HashT dataStart)

/-- C72: loading arbitrary bytes in the byte order of the machine, with offset pointers, checks and `DEEP_CHECK` on, where signed
overflow wraps and pointers to different types have different type hashes: the call ends, by an exception or with a root from which
everything owned or reachable lies in the buffer, aligned for its type; no byte of memory changes, nothing outside of the buffer is
accessed. -/
theorem C72_untrusted_native {g : Cfg} {m : Mode} {th sh : HashT} {t : Ty} {base len : Nat} {mem : Mem} {K : Nat}
    (hcast : Mode.isEnabled m Mode.CAST = false) (hdeep : Mode.isEnabled m Mode.DEEP_CHECK = true)
    (hnat : conversionNecessary g.host m = false) (hraw : g.raw = false) (hb0 : 0 < base) (hb1 : base + len < 2 ^ 63) (hw : t.WF)
    (hd : DeepCfg g m t len K) (hk : Keyed (g.env m base len) g.tys K) :
    deserialize g m th sh t base len mem = .error .exn ∨ (deserialize g m th sh t base len mem = .ok (mem, base + dataStart m) ∧
      Safe (g.env m base len) mem t (base + dataStart m) ∧
      ∀ n x, Reach (g.env m base len) mem g.tys t (base + dataStart m) n x → Safe (g.env m base len) mem (g.tys n) x) := by
  rcases C39_safe_partial (th := th) (sh := sh) (mem := mem) hcast hb0 hb1 hw hd (Or.inr ⟨hnat, hraw⟩) with h | ⟨mem', h1, _, h2, h3⟩
  · exact Or.inl h
  · have := C55_read_only g m th sh t base len mem mem' _ hnat hraw h1
    subst this
    exact Or.inr ⟨h1, h2 (Or.inl hdeep), h3 hdeep hk⟩

/-- The demonstration type on a big endian machine (no conversion in this mode) with offset pointers. -/
example : Mode.isEnabled demoMode Mode.DEEP_CHECK = true ∧ conversionNecessary .big demoMode = false ∧
    DeepCfg { demoCfg with raw := false } demoMode demoRoot 84 1 ∧
    Keyed (Cfg.env { demoCfg with raw := false } demoMode 4096 84) demoCfg.tys 1 := by
  have h := demo_deepCfg 84 (by decide)
  exact ⟨by decide, by decide, ⟨h.checked, h.wrap, h.fits, h.below, h.table, h.pos, h.fuel⟩, fun _ _ _ _ _ => rfl⟩

/-- C73: a live value (valid flags, separate vector storages, no empty string with storage, no hash table with tombstones outside of
`HTable`), whose type is aligned behind the header, is written by `serialize`; every reader with matching pointee types that places
the bytes at an aligned address - of either byte order, with either kind of pointers, with or without `DEEP_CHECK` - accepts them and
gets an equal value, writes only the data part of the buffer, and each pointer to a serialized object designates the copy of that
object (as a value of the pointee type, cf. `C38_relinked_partial`), every other pointer is null. -/
theorem C73_round_trip {host : Endian} {raw : Bool} {m : Mode} {th sh : HashT} {mem : Mem} {t : Ty} {a : Nat}
    (hs : Source host raw m mem t a) (hcast : Mode.isEnabled m Mode.CAST = false) :
    ∃ bytes, serialize host raw m th sh mem t a = .ok bytes ∧ ∀ g base mem2, Reader host raw m mem t a g base bytes.length →
      rd mem2 base bytes.length = bytes → ∃ mem', deserialize g m th sh t base bytes.length mem2 = .ok (mem', base + dataStart m) ∧
        Same ⟨host, raw, mem⟩ ⟨g.host, g.raw, mem'⟩ (Follows ⟨host, raw, mem⟩ ⟨g.host, g.raw, mem'⟩ t a (base + dataStart m))
          t a (base + dataStart m) ∧
        (∀ x, x < base + dataStart m ∨ base + bytes.length ≤ x → mem' x = mem2 x) ∧
        ∀ p fa fb, Twin ⟨host, raw, mem⟩ ⟨g.host, g.raw, mem'⟩ t a (base + dataStart m) (.ptr p) fa fb →
          (p = .void → ptrAt g.host g.raw mem' fb = none) ∧
          (ptrAt host raw mem fa = none → ptrAt g.host g.raw mem' fb = none) ∧
          ∀ n v, p = .obj n → ptrAt host raw mem fa = some v →
            (¬ Serialized ⟨host, raw, mem⟩ t a v → ptrAt g.host g.raw mem' fb = none) ∧
            (Serialized ⟨host, raw, mem⟩ t a v → ∃ w, ptrAt g.host g.raw mem' fb = some w ∧
              (∃ u, Le base u (g.tys n) ∧ Twin ⟨host, raw, mem⟩ ⟨g.host, g.raw, mem'⟩ t a (base + dataStart m) u v w) ∧
              Same ⟨host, raw, mem⟩ ⟨g.host, g.raw, mem'⟩ (Follows ⟨host, raw, mem⟩ ⟨g.host, g.raw, mem'⟩ t a (base + dataStart m))
                (g.tys n) v w) := by
  obtain ⟨bytes, h1, h2⟩ := C37_round_trip_partial (th := th) (sh := sh) hs hcast
  obtain ⟨bytes', k1, k2⟩ := C38_relinked_partial (th := th) (sh := sh) hs hcast
  rw [h1] at k1
  cases k1
  refine ⟨bytes, h1, fun g base mem2 hr hrd => ?_⟩
  obtain ⟨mem', e1, e2, e3⟩ := h2 g base mem2 hr hrd
  obtain ⟨mem'', root, f1, f2⟩ := k2 g base mem2 hr hrd
  rw [e1] at f1
  cases f1
  refine ⟨mem', e1, e2, e3, fun p fa fb ht => ?_⟩
  obtain ⟨q1, q2, q3⟩ := f2 p fa fb ht
  refine ⟨q1, q2, fun n v hp hv => ⟨(q3 n v hp hv).1, fun hS => ?_⟩⟩
  exact (q3 n v hp hv).2 hS

example (base len : Nat) (h0 : 0 < base) (h1 : base < 2 ^ 62) (h8 : 8 ∣ base) (hl : len ≤ 1000) :
    Source .little false demoMode demoMem demoRoot 64 ∧ Reader .little false demoMode demoMem demoRoot 64 demoCfg base len :=
  ⟨demo_source demoMode (by decide) (by decide), demo_reader base len h0 h1 h8 hl⟩

end Cista.Ser

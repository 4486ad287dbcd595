import Verif.Ser.Props

/-!
# Recursive types

Types that own values of their own type, such as `struct node { vector<node> children_; };`.  The functions for such a type call
themselves (serialization.h:137-160, 736-746); here this is unrolled: `unroll k n` is the type number `n` with at most `k` levels of
named types inside one another, below which there is a type without values.  Code for `unroll k n` behaves as the recursive code, and
throws when the recursion would become deeper than `k`; its results do not depend on `k` (`Imp` below).
-/
set_option linter.unusedSimpArgs false
set_option linter.unusedSectionVars false

namespace Cista.Ser

open Cista.Arith (Mode)
open Cista.Hash (HashT dataStart)

/-! ## Definitions -/

/-- Types with references to named types. -/
inductive RTy where
  | ty (t : Ty)
  | name (n : Nat)
  | vec (sw : Nat) (indexed : Bool) (t : RTy)
  | uptr (t : RTy)
  | hash (t : RTy)
  | opt (t : RTy)
  | var (ib so size align n : Nat) (t : Fin n → RTy)
  | arr (n : Nat) (t : RTy)
  | idx (t : RTy)
  | agg (size align n : Nat) (off : Fin n → Nat) (t : Fin n → RTy)

/-- Replace the names by types. -/
def RTy.fill (X : Nat → Ty) : RTy → Ty
  | .ty t => t
  | .name n => X n
  | .vec sw ix t => .vec sw ix (t.fill X)
  | .uptr t => .uptr (t.fill X)
  | .hash t => .hash (t.fill X)
  | .opt t => .opt (t.fill X)
  | .var ib so s al n t => .var ib so s al n fun i => (t i).fill X
  | .arr n t => .arr n (t.fill X)
  | .idx t => .idx (t.fill X)
  | .agg s al n off t => .agg s al n off fun i => (t i).fill X

/-- Definitions of the named types, with their `sizeof` and `alignof`.  The pointee types of pointer members are named types, too. -/
structure Defs where
  body : Nat → RTy
  size : Nat → Nat
  align : Nat → Nat

/-- Type `n` with `k` levels of named types. -/
def Defs.unroll (D : Defs) : Nat → Nat → Ty
  | 0, n => .empty (D.size n) (D.align n)
  | k + 1, n => (D.body n).fill (D.unroll k)

/-- The layouts are possible, sizes and alignments are those of the bodies. -/
def Defs.WF (D : Defs) : Prop := ∀ n, (D.unroll 1 n).WF ∧ (D.unroll 1 n).sizeof = D.size n ∧ (D.unroll 1 n).alignof = D.align n

/-- `serialize` of the value of type `n` at `a` yields `bytes`: for every recursion limit from some value on. -/
def Defs.Serializes (D : Defs) (host : Endian) (raw : Bool) (m : Mode) (th sh : HashT) (mem : Mem) (n a : Nat) (bytes : List Byte) : Prop :=
  ∃ k0, ∀ k, k0 ≤ k → serialize host raw m th sh mem (D.unroll k n) a = .ok bytes

/-- `deserialize` of a value of type `n` yields `r`: for every recursion limit from some value on. -/
def Defs.Loads (D : Defs) (g : Cfg) (m : Mode) (th sh : HashT) (n base len : Nat) (mem : Mem) (r : Mem × Nat) : Prop :=
  ∃ k0, ∀ k j, k0 ≤ k → k0 ≤ j → deserialize { g with tys := D.unroll j } m th sh (D.unroll k n) base len mem = .ok r

/-! ## Unrollings are alike -/

variable {D : Defs} {X Y : Nat → Ty}

theorem RTy.fill_geo (h : ∀ n, (X n).sizeof = (Y n).sizeof ∧ (X n).alignof = (Y n).alignof) : ∀ r : RTy,
    (r.fill X).sizeof = (r.fill Y).sizeof ∧ (r.fill X).alignof = (r.fill Y).alignof := by
  intro r
  induction r with
  | ty t => exact ⟨rfl, rfl⟩
  | name n => exact h n
  | vec sw ix t ih => exact ⟨rfl, rfl⟩
  | uptr t ih => exact ⟨rfl, rfl⟩
  | hash t ih => exact ⟨rfl, rfl⟩
  | opt t ih => simp only [fill, Ty.sizeof, Ty.alignof]; rw [ih.1, ih.2]; exact ⟨rfl, rfl⟩
  | var ib so s al n t ih => exact ⟨rfl, rfl⟩
  | arr n t ih => simp only [fill, Ty.sizeof, Ty.alignof]; rw [ih.1, ih.2]; exact ⟨rfl, rfl⟩
  | idx t ih => simp only [fill, Ty.sizeof, Ty.alignof]; rw [ih.1, ih.2]; exact ⟨rfl, rfl⟩
  | agg s al n off t ih => exact ⟨rfl, rfl⟩

theorem RTy.fill_wf (h : ∀ n, (X n).sizeof = (Y n).sizeof ∧ (X n).alignof = (Y n).alignof) (hY : ∀ n, (Y n).WF) : ∀ r : RTy,
    (r.fill X).WF → (r.fill Y).WF := by
  intro r
  induction r with
  | ty t => exact id
  | name n => exact fun _ => hY n
  | vec sw ix t ih => exact fun h => ⟨h.1, ih h.2⟩
  | uptr t ih => exact ih
  | hash t ih => exact ih
  | opt t ih => exact ih
  | var ib so s al n t ih =>
    rintro ⟨w1, w2, w3, w4, w5, w6, w7, w8, w9⟩
    refine ⟨w1, w2, w3, w4, w5, w6, w7, w8, fun i => ?_⟩
    obtain ⟨v1, v2, v3, v4⟩ := w9 i
    rw [← (fill_geo h (t i)).1, ← (fill_geo h (t i)).2]
    exact ⟨ih i v1, v2, v3, v4⟩
  | arr n t ih => exact fun h => ⟨h.1, ih h.2⟩
  | idx t ih => exact ih
  | agg s al n off t ih =>
    rintro ⟨w1, w2, w3, w4, w5⟩
    refine ⟨w1, w2, w3, fun i => ?_, fun i j hij => ?_⟩
    · obtain ⟨v1, v2, v3, v4⟩ := w4 i
      rw [← (fill_geo h (t i)).1, ← (fill_geo h (t i)).2]
      exact ⟨ih i v1, v2, v3, v4⟩
    · rw [← (fill_geo h (t i)).1]
      exact w5 i j hij

theorem RTy.fill_al {M : Nat} (hY : ∀ n, (Y n).Al M) : ∀ r : RTy, (r.fill X).Al M → (r.fill Y).Al M := by
  intro r
  induction r with
  | ty t => exact id
  | name n => exact fun _ => hY n
  | vec sw ix t ih => exact fun h => ⟨h.1, ih h.2⟩
  | uptr t ih => exact fun h => ⟨h.1, ih h.2⟩
  | hash t ih => exact fun h => ⟨h.1, ih h.2⟩
  | opt t ih => exact ih
  | var ib so s al n t ih => exact fun h => ⟨h.1, fun i => ih i (h.2 i)⟩
  | arr n t ih => exact ih
  | idx t ih => exact ih
  | agg s al n off t ih => exact fun h => ⟨h.1, fun i => ih i (h.2 i)⟩

theorem RTy.fill_idxOk {c : Bool} (hY : ∀ n, (Y n).IdxOk c) : ∀ r : RTy, (r.fill X).IdxOk c → (r.fill Y).IdxOk c := by
  intro r
  induction r with
  | ty t => exact id
  | name n => exact fun _ => hY n
  | vec sw ix t ih => exact ih
  | uptr t ih => exact ih
  | hash t ih => exact ih
  | opt t ih => exact ih
  | var ib so s al n t ih => exact fun h => ⟨h.1, fun i => ih i (h.2 i)⟩
  | arr n t ih => exact ih
  | idx t ih => exact ih
  | agg s al n off t ih => exact fun h i => ih i (h i)

theorem RTy.fill_fits (h : ∀ n, (X n).sizeof = (Y n).sizeof ∧ (X n).alignof = (Y n).alignof) (hY : ∀ n, (Y n).Fits) : ∀ r : RTy,
    (r.fill X).Fits → (r.fill Y).Fits := by
  intro r
  induction r with
  | ty t => exact id
  | name n => exact fun _ => hY n
  | vec sw ix t ih => exact fun h' => ⟨by rw [← (fill_geo h t).1]; exact h'.1, ih h'.2⟩
  | uptr t ih => exact ih
  | hash t ih => exact fun h' => ⟨by rw [← (fill_geo h t).1]; exact h'.1, ih h'.2⟩
  | opt t ih => exact ih
  | var ib so s al n t ih => exact fun h i => ih i (h i)
  | arr n t ih => exact ih
  | idx t ih => exact ih
  | agg s al n off t ih => exact fun h i => ih i (h i)

theorem RTy.fill_below {K : Nat} (hY : ∀ n, (Y n).Below K) : ∀ r : RTy, (r.fill X).Below K → (r.fill Y).Below K := by
  intro r
  induction r with
  | ty t => exact id
  | name n => exact fun _ => hY n
  | vec sw ix t ih => exact ih
  | uptr t ih => exact ih
  | hash t ih => exact ih
  | opt t ih => exact ih
  | var ib so s al n t ih => exact fun h i => ih i (h i)
  | arr n t ih => exact ih
  | idx t ih => exact ih
  | agg s al n off t ih => exact fun h i => ih i (h i)

theorem RTy.fill_noHash (hY : ∀ n, (Y n).NoHash) : ∀ r : RTy, (r.fill X).NoHash → (r.fill Y).NoHash := by
  intro r
  induction r with
  | ty t => exact id
  | name n => exact fun _ => hY n
  | vec sw ix t ih => exact ih
  | uptr t ih => exact ih
  | hash t ih => exact id
  | opt t ih => exact ih
  | var ib so s al n t ih => exact fun h i => ih i (h i)
  | arr n t ih => exact ih
  | idx t ih => exact ih
  | agg s al n off t ih => exact fun h i => ih i (h i)

theorem RTy.fill_le {M : Nat} (h : ∀ n, Le M (X n) (Y n)) : ∀ r : RTy, Le M (r.fill X) (r.fill Y) := by
  intro r
  induction r with
  | ty t => exact .refl t
  | name n => exact h n
  | vec sw ix t ih => exact .vec ih
  | uptr t ih => exact .uptr ih
  | hash t ih => exact .hash ih
  | opt t ih => exact .opt ih
  | var ib so s al n t ih => exact .var ih
  | arr n t ih => exact .arr ih
  | idx t ih => exact .idx ih
  | agg s al n off t ih => exact .agg ih

theorem Defs.unroll_geo (hD : D.WF) : ∀ k n, (D.unroll k n).sizeof = D.size n ∧ (D.unroll k n).alignof = D.align n
  | 0, n => ⟨rfl, rfl⟩
  | k + 1, n => by
    have := RTy.fill_geo (X := D.unroll k) (Y := D.unroll 0) (fun i => Defs.unroll_geo hD k i) (D.body n)
    exact ⟨this.1.trans (hD n).2.1, this.2.trans (hD n).2.2⟩

theorem Defs.geo_eq (hD : D.WF) (k j n : Nat) : (D.unroll k n).sizeof = (D.unroll j n).sizeof ∧
    (D.unroll k n).alignof = (D.unroll j n).alignof :=
  ⟨(Defs.unroll_geo hD k n).1.trans (Defs.unroll_geo hD j n).1.symm, (Defs.unroll_geo hD k n).2.trans (Defs.unroll_geo hD j n).2.symm⟩

theorem Defs.unroll_wf (hD : D.WF) : ∀ k n, (D.unroll k n).WF
  | 0, n => by
    have hp := Ty.pos_of_WF (t := D.unroll 1 n) (hD n).1
    rw [(hD n).2.1, (hD n).2.2] at hp
    exact ⟨Or.inl rfl, by decide, by decide, hp.1, hp.2.2, Nat.one_dvd _, hp.2.1, hp.2.1, fun i => i.elim0⟩
  | k + 1, n => RTy.fill_wf (X := D.unroll 0) (fun i => Defs.geo_eq hD 0 k i) (Defs.unroll_wf hD k) (D.body n) (hD n).1

theorem Defs.unroll_al (hD : D.WF) {M : Nat} (h : ∀ n, (D.unroll 1 n).Al M) : ∀ k n, (D.unroll k n).Al M
  | 0, n => ⟨by have := (h n).dvd; rwa [(hD n).2.2] at this, fun i => i.elim0⟩
  | k + 1, n => RTy.fill_al (Defs.unroll_al hD h k) (D.body n) (h n)

theorem Defs.unroll_idxOk {c : Bool} (h : ∀ n, (D.unroll 1 n).IdxOk c) : ∀ k n, (D.unroll k n).IdxOk c
  | 0, n => ⟨Or.inl rfl, fun i => i.elim0⟩
  | k + 1, n => RTy.fill_idxOk (Defs.unroll_idxOk h k) (D.body n) (h n)

theorem Defs.unroll_fits (hD : D.WF) (h : ∀ n, (D.unroll 1 n).Fits) : ∀ k n, (D.unroll k n).Fits
  | 0, n => fun i => i.elim0
  | k + 1, n => RTy.fill_fits (X := D.unroll 0) (fun i => Defs.geo_eq hD 0 k i) (Defs.unroll_fits hD h k) (D.body n) (h n)

theorem Defs.unroll_below {K : Nat} (h : ∀ n, (D.unroll 1 n).Below K) : ∀ k n, (D.unroll k n).Below K
  | 0, n => fun i => i.elim0
  | k + 1, n => RTy.fill_below (Defs.unroll_below h k) (D.body n) (h n)

theorem Defs.unroll_noHash (h : ∀ n, (D.unroll 1 n).NoHash) : ∀ k n, (D.unroll k n).NoHash
  | 0, n => fun i => i.elim0
  | k + 1, n => RTy.fill_noHash (Defs.unroll_noHash h k) (D.body n) (h n)

theorem Defs.unroll_le (hD : D.WF) {M : Nat} (h : ∀ n, (D.unroll 1 n).Al M) : ∀ k j n, k ≤ j → Le M (D.unroll k n) (D.unroll j n)
  | 0, j, n, _ => by
    have := Le.empty (M := M) (Defs.unroll_wf hD j n) (Defs.unroll_al hD h j n)
    rwa [(Defs.unroll_geo hD j n).1, (Defs.unroll_geo hD j n).2] at this
  | k + 1, 0, n, hk => by omega
  | k + 1, j + 1, n, hk => RTy.fill_le (fun i => Defs.unroll_le hD h k j i (by omega)) (D.body n)

theorem Ty.al_zero : ∀ t : Ty, t.Al 0 := by
  intro t
  induction t with
  | int w => exact Nat.dvd_zero _
  | blob s al => exact Nat.dvd_zero _
  | ptr p => exact Nat.dvd_zero _
  | vec sw ix t ih => exact ⟨Nat.dvd_zero _, ih⟩
  | str => exact Nat.dvd_zero _
  | uptr t ih => exact ⟨Nat.dvd_zero _, ih⟩
  | hash t ih => exact ⟨Nat.dvd_zero _, ih⟩
  | opt t ih => exact ih
  | var ib so s al n t ih => exact ⟨Nat.dvd_zero _, ih⟩
  | arr n t ih => exact ih
  | idx t ih => exact ih
  | agg s al n off t ih => exact ⟨Nat.dvd_zero _, ih⟩

/-! ## Results do not depend on the recursion limit -/

/-- A result of the first run is a result of the second one. -/
def Imp {α : Type} (r r' : Res α) : Prop := ∀ v, r = .ok v → r' = .ok v

theorem Imp.refl {α : Type} (r : Res α) : Imp r r := fun _ h => h

theorem Imp.error {α : Type} {x : Err} {r : Res α} : Imp (.error x) r := fun _ h => by cases h

theorem Imp.bind {α β : Type} {r r' : Res α} {f f' : α → Res β} (h : Imp r r') (hf : ∀ v, Imp (f v) (f' v)) : Imp (r >>= f) (r' >>= f') := by
  intro v hv
  obtain ⟨x, h1, h2⟩ := ok_of_bind hv
  rw [h x h1, ok_bind]
  exact hf x v h2

theorem Imp.then {α β : Type} {r : Res α} {f f' : α → Res β} (hf : ∀ v, Imp (f v) (f' v)) : Imp (r >>= f) (r >>= f') :=
  Imp.bind (Imp.refl r) hf

theorem Imp.for {σ : Type} {f f' : Nat → σ → Res σ} (hf : ∀ i s, Imp (f i s) (f' i s)) : ∀ k i s, Imp (forFrom f i k s) (forFrom f' i k s)
  | 0, i, s => Imp.refl _
  | k + 1, i, s => by
    rw [forFrom_succ, forFrom_succ]
    exact Imp.bind (hf i s) fun v => Imp.for hf k (i + 1) v

theorem Imp.iter {σ : Type} {d : DEnv} {mem : σ → Mem} {f f' : Nat → σ → Res σ} {c cap : Nat} (hf : ∀ i s, Imp (f i s) (f' i s)) :
    ∀ k i s, Imp (hashIter d mem f c cap k i s) (hashIter d mem f' c cap k i s)
  | 0, i, s => Imp.refl _
  | k + 1, i, s => by
    unfold hashIter
    split
    · exact Imp.refl _
    · exact Imp.bind (hf i s) fun v => Imp.then fun j => Imp.iter hf k j v

theorem Imp.hash {σ : Type} {d : DEnv} {mem : σ → Mem} {f f' : Nat → σ → Res σ} {size a : Nat} (hf : ∀ i s, Imp (f i s) (f' i s)) (s : σ) :
    Imp (hashFor d mem f size a s) (hashFor d mem f' size a s) := by
  unfold hashFor
  exact Imp.then fun _ => Imp.then fun _ => Imp.then fun _ => Imp.then fun _ => Imp.then fun _ =>
    Imp.iter (fun i s => Imp.then fun el => hf _ s) _ _ _

theorem Imp.of_eq {α : Type} {r r' : Res α} (h : r = r') : Imp r r' := fun _ hv => h ▸ hv

variable {M : Nat} {t u : Ty}

theorem ser_imp {e : SEnv} (h : Le M t u) : ∀ a pos c, Imp (ser e t a pos c) (ser e u a pos c) := by
  induction h with
  | refl t => exact fun _ _ _ => Imp.refl _
  | empty _ _ =>
    intro a pos c v hv
    unfold Ty.empty ser at hv
    obtain ⟨c', _, hv⟩ := ok_of_bind hv
    simp at hv
  | vec h ih =>
    intro a pos c
    unfold ser
    rw [h.geo.1, h.geo.2]
    cases ptrAt e.host e.raw e.mem a with
    | none => cases rdN e.host e.mem (a + 8) _ <;> exact Imp.refl _
    | some el =>
      cases rdN e.host e.mem (a + 8) _ with
      | zero => exact Imp.refl _
      | succ n => exact Imp.then fun c => Imp.for (fun i c => ih _ _ _) _ _ _
  | uptr h ih =>
    intro a pos c
    unfold ser
    rw [h.geo.1, h.geo.2]
    cases ptrAt e.host e.raw e.mem a with
    | none => exact Imp.refl _
    | some el => exact Imp.then fun c => Imp.then fun c => ih _ _ _
  | hash h ih =>
    intro a pos c
    unfold ser
    rw [h.geo.1, h.geo.2]
    cases ptrAt e.host e.raw e.mem a with
    | none => exact Imp.refl _
    | some el =>
      refine Imp.then fun c => ?_
      cases ptrAt e.host e.raw e.mem (a + 8) with
      | none => exact Imp.refl _
      | some ct =>
        refine Imp.for (fun i c => ?_) _ _ _
        split
        · exact ih _ _ _
        · exact Imp.refl _
  | opt h ih =>
    intro a pos c
    unfold ser
    rw [h.geo.2]
    split
    · exact ih _ _ _
    · exact Imp.refl _
  | var h ih =>
    intro a pos c
    unfold ser
    refine Imp.then fun c => ?_
    split
    · exact ih _ _ _ _
    · exact Imp.refl _
  | arr h ih =>
    intro a pos c
    unfold ser
    rw [h.geo.1]
    exact Imp.for (fun i c => ih _ _ _) _ _ _
  | idx h ih =>
    intro a pos c
    unfold ser
    exact ih _ _ _
  | agg h ih =>
    intro a pos c
    unfold ser
    refine Imp.for (fun i c => ?_) _ _ _
    split
    · exact ih _ _ _ _
    · exact Imp.refl _

theorem deser_imp {d : DEnv} (h : Le M t u) : ∀ a m, Imp (deser d t a m) (deser d u a m) := by
  induction h with
  | refl t => exact fun _ _ => Imp.refl _
  | empty _ _ =>
    intro a m v hv
    unfold Ty.empty deser at hv
    obtain ⟨_, _, hv⟩ := ok_of_bind hv
    obtain ⟨_, _, hv⟩ := ok_of_bind hv
    obtain ⟨_, _, hv⟩ := ok_of_bind hv
    simp at hv
  | vec h ih =>
    intro a m
    unfold deser
    rw [h.geo.1, h.geo.2]
    refine Imp.then fun _ => Imp.then fun m => Imp.then fun m => Imp.then fun m => Imp.then fun _ => Imp.then fun x => Imp.then fun n => ?_
    split
    · exact Imp.refl _
    · exact Imp.then fun el => Imp.for (fun i c => ih _ _) _ _ _
  | uptr h ih =>
    intro a m
    unfold deser
    rw [h.geo.1, h.geo.2]
    refine Imp.then fun _ => Imp.then fun m => Imp.then fun _ => Imp.then fun x => ?_
    split
    · exact Imp.refl _
    · exact Imp.then fun el => ih _ _
  | hash h ih =>
    intro a m
    unfold deser
    rw [h.geo.1, h.geo.2]
    exact Imp.then fun _ => Imp.then fun m => Imp.then fun m => Imp.then fun m => Imp.then fun m => Imp.then fun m => Imp.then fun _ =>
      Imp.hash (fun x m => ih _ _) _
  | opt h ih =>
    intro a m
    unfold deser
    simp only [Ty.sizeof, Ty.alignof]
    rw [h.geo.1, h.geo.2]
    refine Imp.then fun _ => Imp.then fun _ => Imp.then fun b => ?_
    split
    · exact Imp.refl _
    · exact ih _ _
  | var h ih =>
    intro a m
    unfold deser
    refine Imp.then fun _ => Imp.then fun b => Imp.then fun _ => ?_
    split
    · exact ih _ _ _
    · exact Imp.refl _
  | arr h ih =>
    intro a m
    unfold deser
    simp only [Ty.sizeof, Ty.alignof]
    rw [h.geo.1, h.geo.2]
    exact Imp.then fun _ => Imp.for (fun i c => ih _ _) _ _ _
  | idx h ih =>
    intro a m
    unfold deser
    rw [h.geo.1, h.geo.2]
    exact Imp.then fun _ => ih _ _
  | agg h ih =>
    intro a m
    unfold deser
    refine Imp.then fun _ => Imp.for (fun i c => ?_) _ _ _
    split
    · exact ih _ _ _
    · exact Imp.refl _

theorem deepT_same {d : DEnv} {m : Mem} {rec rec' : Nat → Nat → Vis → Res Vis} (hr : ∀ n x v, Imp (rec n x v) (rec' n x v)) :
    ∀ (t : Ty) a vis, Imp (deepT d m rec t a vis) (deepT d m rec' t a vis) := by
  intro t
  induction t with
  | int w => exact fun a vis => by unfold deepT; exact Imp.refl _
  | blob s al => exact fun a vis => by unfold deepT; exact Imp.refl _
  | str => exact fun a vis => by unfold deepT; exact Imp.refl _
  | ptr p =>
    intro a vis
    cases p with
    | void => unfold deepT; exact Imp.refl _
    | obj n =>
      unfold deepT
      refine Imp.then fun _ => Imp.then fun _ => Imp.then fun x => ?_
      split
      · exact Imp.refl _
      · split
        · exact Imp.refl _
        · exact Imp.then fun y => hr _ _ _
  | vec sw ix t ih =>
    intro a vis
    unfold deepT
    refine Imp.then fun _ => Imp.then fun _ => Imp.then fun x => Imp.then fun n => ?_
    split
    · exact Imp.refl _
    · exact Imp.then fun el => Imp.for (fun i c => ih _ _) _ _ _
  | uptr t ih =>
    intro a vis
    unfold deepT
    refine Imp.then fun _ => Imp.then fun _ => Imp.then fun x => Imp.then fun _ => ?_
    split
    · exact Imp.refl _
    · exact Imp.then fun el => ih _ _
  | hash t ih =>
    intro a vis
    unfold deepT
    exact Imp.then fun _ => Imp.then fun _ => Imp.hash (fun x m => ih _ _) _
  | opt t ih =>
    intro a vis
    unfold deepT
    refine Imp.then fun _ => Imp.then fun _ => Imp.then fun b => ?_
    split
    · exact Imp.refl _
    · exact ih _ _
  | var ib so s al n t ih =>
    intro a vis
    unfold deepT
    refine Imp.then fun _ => Imp.then fun b => Imp.then fun _ => ?_
    split
    · exact ih _ _ _
    · exact Imp.refl _
  | arr n t ih =>
    intro a vis
    unfold deepT
    exact Imp.then fun _ => Imp.for (fun i c => ih _ _) _ _ _
  | idx t ih =>
    intro a vis
    unfold deepT
    exact Imp.then fun _ => ih _ _
  | agg s al n off t ih =>
    intro a vis
    unfold deepT
    refine Imp.then fun _ => Imp.for (fun i c => ?_) _ _ _
    split
    · exact ih _ _ _
    · exact Imp.refl _

theorem deepT_imp {d : DEnv} {m : Mem} {rec rec' : Nat → Nat → Vis → Res Vis} (hr : ∀ n x v, Imp (rec n x v) (rec' n x v)) (h : Le M t u) :
    ∀ a vis, Imp (deepT d m rec t a vis) (deepT d m rec' u a vis) := by
  induction h with
  | refl t => exact deepT_same hr t
  | empty _ _ =>
    intro a vis v hv
    unfold Ty.empty deepT at hv
    obtain ⟨_, _, hv⟩ := ok_of_bind hv
    obtain ⟨_, _, hv⟩ := ok_of_bind hv
    obtain ⟨_, _, hv⟩ := ok_of_bind hv
    simp at hv
  | vec h ih =>
    intro a vis
    unfold deepT
    rw [h.geo.1, h.geo.2]
    refine Imp.then fun _ => Imp.then fun _ => Imp.then fun x => Imp.then fun n => ?_
    split
    · exact Imp.refl _
    · exact Imp.then fun el => Imp.for (fun i c => ih _ _) _ _ _
  | uptr h ih =>
    intro a vis
    unfold deepT
    rw [h.geo.1, h.geo.2]
    refine Imp.then fun _ => Imp.then fun _ => Imp.then fun x => Imp.then fun _ => ?_
    split
    · exact Imp.refl _
    · exact Imp.then fun el => ih _ _
  | hash h ih =>
    intro a vis
    unfold deepT
    rw [h.geo.1, h.geo.2]
    exact Imp.then fun _ => Imp.then fun _ => Imp.hash (fun x m => ih _ _) _
  | opt h ih =>
    intro a vis
    unfold deepT
    simp only [Ty.sizeof, Ty.alignof]
    rw [h.geo.1, h.geo.2]
    refine Imp.then fun _ => Imp.then fun _ => Imp.then fun b => ?_
    split
    · exact Imp.refl _
    · exact ih _ _
  | var h ih =>
    intro a vis
    unfold deepT
    refine Imp.then fun _ => Imp.then fun b => Imp.then fun _ => ?_
    split
    · exact ih _ _ _
    · exact Imp.refl _
  | arr h ih =>
    intro a vis
    unfold deepT
    simp only [Ty.sizeof, Ty.alignof]
    rw [h.geo.1, h.geo.2]
    exact Imp.then fun _ => Imp.for (fun i c => ih _ _) _ _ _
  | idx h ih =>
    intro a vis
    unfold deepT
    rw [h.geo.1, h.geo.2]
    exact Imp.then fun _ => ih _ _
  | agg h ih =>
    intro a vis
    unfold deepT
    refine Imp.then fun _ => Imp.for (fun i c => ?_) _ _ _
    split
    · exact ih _ _ _
    · exact Imp.refl _

theorem deep_imp {d : DEnv} {m : Mem} {tys tys' : Nat → Ty} (h : ∀ n, Le M (tys n) (tys' n)) : ∀ f n x vis,
    Imp (deep d m tys f n x vis) (deep d m tys' f n x vis)
  | 0, n, x, vis => Imp.refl _
  | f + 1, n, x, vis => by
    unfold deep
    exact deepT_imp (fun n x v => deep_imp h f n x v) (h n) _ _

theorem serialize_imp {host : Endian} {raw : Bool} {m : Mode} {th sh : HashT} {mem : Mem} (h : Le M t u) (a : Nat) :
    Imp (serialize host raw m th sh mem t a) (serialize host raw m th sh mem u a) := by
  unfold serialize serRoot
  rw [h.geo.1, h.geo.2]
  exact Imp.bind (Imp.bind (ser_imp h _ _ _) fun c => Imp.refl _) fun r => Imp.refl _

theorem deserialize_imp {g : Cfg} {tys' : Nat → Ty} {m : Mode} {th sh : HashT} {base len : Nat} {mem : Mem} (h : Le M t u)
    (h' : ∀ n, Le M (g.tys n) (tys' n)) :
    Imp (deserialize g m th sh t base len mem) (deserialize { g with tys := tys' } m th sh u base len mem) := by
  have henv : ({ g with tys := tys' } : Cfg).env m base len = g.env m base len := by
    unfold Cfg.env
    simp only [(h' _).geo.1, (h' _).geo.2]
  unfold deserialize
  rw [henv]
  dsimp only
  split
  · exact Imp.refl _
  · refine Imp.then fun _ => Imp.bind (deser_imp h _ _) fun mem' => ?_
    split
    · exact Imp.bind (deepT_imp (deep_imp h' _) h _ _) fun _ => Imp.refl _
    · exact Imp.refl _

theorem Defs.Serializes.unique {host : Endian} {raw : Bool} {m : Mode} {th sh : HashT} {mem : Mem} {n a : Nat} {b b' : List Byte}
    (h : D.Serializes host raw m th sh mem n a b) (h' : D.Serializes host raw m th sh mem n a b') : b = b' := by
  obtain ⟨k, h⟩ := h
  obtain ⟨k', h'⟩ := h'
  have h1 := h (max k k') (by omega)
  rw [h' (max k k') (by omega)] at h1
  injection h1 with h1
  exact h1.symm

theorem Defs.Loads.unique {g : Cfg} {m : Mode} {th sh : HashT} {n base len : Nat} {mem : Mem} {r r' : Mem × Nat}
    (h : D.Loads g m th sh n base len mem r) (h' : D.Loads g m th sh n base len mem r') : r = r' := by
  obtain ⟨k, h⟩ := h
  obtain ⟨k', h'⟩ := h'
  have h1 := h (max k k') (max k k') (by omega) (by omega)
  rw [h' (max k k') (max k k') (by omega) (by omega)] at h1
  injection h1 with h1
  exact h1.symm

/-- Every result of an unrolling is the result. -/
theorem Defs.Serializes.of (hD : D.WF) {host : Endian} {raw : Bool} {m : Mode} {th sh : HashT} {mem : Mem} {k n a : Nat} {b : List Byte}
    (h : serialize host raw m th sh mem (D.unroll k n) a = .ok b) : D.Serializes host raw m th sh mem n a b :=
  ⟨k, fun j hj => serialize_imp (Defs.unroll_le hD (M := 0) (fun n => Ty.al_zero _) k j n hj) a _ h⟩

theorem Defs.Loads.of (hD : D.WF) {g : Cfg} {m : Mode} {th sh : HashT} {n base len : Nat} {mem : Mem} {r : Mem × Nat} {k j : Nat}
    (h : deserialize { g with tys := D.unroll j } m th sh (D.unroll k n) base len mem = .ok r) : D.Loads g m th sh n base len mem r :=
  ⟨max k j, fun k' j' hk hj => deserialize_imp (g := { g with tys := D.unroll j })
    (Defs.unroll_le hD (M := 0) (fun n => Ty.al_zero _) k k' n (by omega))
    (fun i => Defs.unroll_le hD (M := 0) (fun n => Ty.al_zero _) j j' i (by omega)) _ h⟩

/-! ## Assumptions -/

/-- What the deep check needs, see `DeepCfg`. -/
structure RDeepCfg (D : Defs) (g : Cfg) (m : Mode) (len K : Nat) : Prop where
  checked : Mode.isEnabled m Mode.UNCHECKED = false
  wrap : g.strict = false
  fits : ∀ n, (D.unroll 1 n).Fits
  below : ∀ n, (D.unroll 1 n).Below K
  fuel : K * len ≤ g.fuel

/-- Where and how a value of type `n` with at most `k` levels is loaded, see `Reader`. -/
structure RReader (D : Defs) (host : Endian) (raw : Bool) (m : Mode) (mem : Mem) (k n a : Nat) (g : Cfg) (base len : Nat) : Prop where
  pos : 0 < base
  top : base + len < 2 ^ 63
  al : ∀ n, (D.unroll 1 n).Al base
  idx : ∀ n, (D.unroll 1 n).IdxOk (conversionNecessary g.host m)
  typed : PtrsDeep base (D.unroll k) (srcEnv host raw m mem).side (D.unroll k n) a
  deep : Mode.isEnabled m Mode.DEEP_CHECK = true → ∃ K, RDeepCfg D g m len K

theorem RDeepCfg.cfg (hD : D.WF) {g : Cfg} {m : Mode} {len K : Nat} (h : RDeepCfg D g m len K) (k j n : Nat) :
    DeepCfg { g with tys := D.unroll j } m (D.unroll k n) len K :=
  ⟨h.checked, h.wrap, Defs.unroll_fits hD h.fits k n, Defs.unroll_below h.below k n,
    fun i _ => ⟨Defs.unroll_wf hD j i, Defs.unroll_fits hD h.fits j i, Defs.unroll_below h.below j i⟩,
    fun i => (Ty.pos_of_WF (Defs.unroll_wf hD j i)).1, h.fuel⟩

theorem RReader.reader (hD : D.WF) {host : Endian} {raw : Bool} {m : Mode} {mem : Mem} {k n a : Nat} {g : Cfg} {base len : Nat}
    (h : RReader D host raw m mem k n a g base len) :
    Reader host raw m mem (D.unroll k n) a { g with tys := D.unroll k } base len :=
  ⟨h.pos, h.top, Defs.unroll_al hD h.al k n, Defs.unroll_idxOk h.idx k n, h.typed, fun hd => by
    obtain ⟨K, hK⟩ := h.deep hd
    exact ⟨K, hK.cfg hD k k n⟩⟩

/-! ## C82 -/

/-- C82: a value of a recursive type, with finitely many levels of values owned by one another, survives a round trip: it is written
with any recursion limit from its own depth on, the bytes load, and the copy is equal.

Partial: as `C37_round_trip_partial`. -/
theorem C82_round_trip_partial (hD : D.WF) {host : Endian} {raw : Bool} {m : Mode} {th sh : HashT} {mem : Mem} {k n a : Nat}
    (hs : Source host raw m mem (D.unroll k n) a) (hcast : Mode.isEnabled m Mode.CAST = false) :
    ∃ bytes, D.Serializes host raw m th sh mem n a bytes ∧ ∀ g base mem2, RReader D host raw m mem k n a g base bytes.length →
      rd mem2 base bytes.length = bytes → ∃ mem', D.Loads g m th sh n base bytes.length mem2 (mem', base + dataStart m) ∧
        Same ⟨host, raw, mem⟩ ⟨g.host, g.raw, mem'⟩ (Follows ⟨host, raw, mem⟩ ⟨g.host, g.raw, mem'⟩ (D.unroll k n) a (base + dataStart m))
          (D.unroll k n) a (base + dataStart m) ∧
        ∀ x, x < base + dataStart m ∨ base + bytes.length ≤ x → mem' x = mem2 x := by
  obtain ⟨bytes, h1, h2⟩ := C37_round_trip_partial (th := th) (sh := sh) hs hcast
  refine ⟨bytes, .of hD h1, fun g base mem2 hr hrd => ?_⟩
  obtain ⟨mem', e1, e2, e3⟩ := h2 { g with tys := D.unroll k } base mem2 (hr.reader hD) hrd
  exact ⟨mem', .of hD e1, e2, e3⟩

/-- C82, pointers: as `C38_relinked_partial`; pointers may refer to values of any level.

Partial: as `C37_round_trip_partial`. -/
theorem C82_relinked_partial (hD : D.WF) {host : Endian} {raw : Bool} {m : Mode} {th sh : HashT} {mem : Mem} {k n a : Nat}
    (hs : Source host raw m mem (D.unroll k n) a) (hcast : Mode.isEnabled m Mode.CAST = false) :
    ∃ bytes, D.Serializes host raw m th sh mem n a bytes ∧ ∀ g base mem2, RReader D host raw m mem k n a g base bytes.length →
      rd mem2 base bytes.length = bytes → ∃ mem' root, D.Loads g m th sh n base bytes.length mem2 (mem', root) ∧
        ∀ p fa fb, Twin ⟨host, raw, mem⟩ ⟨g.host, g.raw, mem'⟩ (D.unroll k n) a root (.ptr p) fa fb →
          (p = .void → ptrAt g.host g.raw mem' fb = none) ∧
          (ptrAt host raw mem fa = none → ptrAt g.host g.raw mem' fb = none) ∧
          ∀ i v, p = .obj i → ptrAt host raw mem fa = some v →
            (¬ Serialized ⟨host, raw, mem⟩ (D.unroll k n) a v → ptrAt g.host g.raw mem' fb = none) ∧
            (Serialized ⟨host, raw, mem⟩ (D.unroll k n) a v → ∃ w, ptrAt g.host g.raw mem' fb = some w ∧
              (∃ u, Le base u (D.unroll k i) ∧ Twin ⟨host, raw, mem⟩ ⟨g.host, g.raw, mem'⟩ (D.unroll k n) a root u v w) ∧
              Same ⟨host, raw, mem⟩ ⟨g.host, g.raw, mem'⟩ (Follows ⟨host, raw, mem⟩ ⟨g.host, g.raw, mem'⟩ (D.unroll k n) a root)
                (D.unroll k i) v w) := by
  obtain ⟨bytes, h1, h2⟩ := C38_relinked_partial (th := th) (sh := sh) hs hcast
  refine ⟨bytes, .of hD h1, fun g base mem2 hr hrd => ?_⟩
  obtain ⟨mem', root, e1, e2⟩ := h2 { g with tys := D.unroll k } base mem2 (hr.reader hD) hrd
  exact ⟨mem', root, .of hD e1, e2⟩

/-- C82, arbitrary input: with every limit on the recursion, checked deserialization of arbitrary bytes as a recursive type throws or
succeeds, without access outside of the buffer; a success is independent of the limit, and the loaded value lies in the buffer.

Partial: as `C39_safe_partial`; without a limit the recursion need not end (`C40_recursive_violated`). -/
theorem C82_safe_partial (hD : D.WF) {g : Cfg} {m : Mode} {th sh : HashT} {n base len : Nat} {mem : Mem} {K : Nat}
    (hcast : Mode.isEnabled m Mode.CAST = false) (hb0 : 0 < base) (hb1 : base + len < 2 ^ 63) (hd : RDeepCfg D g m len K)
    (hS : (∀ n, (D.unroll 1 n).NoHash) ∨ (conversionNecessary g.host m = false ∧ g.raw = false)) (k : Nat) :
    deserialize { g with tys := D.unroll k } m th sh (D.unroll k n) base len mem = .error .exn ∨
    ∃ mem', deserialize { g with tys := D.unroll k } m th sh (D.unroll k n) base len mem = .ok (mem', base + dataStart m) ∧
      D.Loads g m th sh n base len mem (mem', base + dataStart m) ∧
      (∀ x, x < base ∨ base + len ≤ x → mem' x = mem x) ∧
      (Mode.isEnabled m Mode.DEEP_CHECK = true ∨ (conversionNecessary g.host m = false ∧ g.raw = false) →
        Safe (({ g with tys := D.unroll k } : Cfg).env m base len) mem' (D.unroll k n) (base + dataStart m)) ∧
      (Mode.isEnabled m Mode.DEEP_CHECK = true → Keyed (({ g with tys := D.unroll k } : Cfg).env m base len) (D.unroll k) K →
        ∀ i x, Reach (({ g with tys := D.unroll k } : Cfg).env m base len) mem' (D.unroll k) (D.unroll k n) (base + dataStart m) i x →
        Safe (({ g with tys := D.unroll k } : Cfg).env m base len) mem' (D.unroll k i) x) := by
  have hS' : Steady (({ g with tys := D.unroll k } : Cfg).env m base len) (D.unroll k n) :=
    hS.imp (fun h => Defs.unroll_noHash h k n) id
  rcases C39_safe_partial (g := { g with tys := D.unroll k }) (th := th) (sh := sh) (mem := mem) hcast hb0 hb1 (Defs.unroll_wf hD k n)
    (hd.cfg hD k k n) hS' with h | ⟨mem', h1, h2, h3, h4⟩
  · exact Or.inl h
  · exact Or.inr ⟨mem', h1, .of hD h1, h2, h3, h4⟩

end Cista.Ser

import Verif.Ser.DeserOk

/-!
# Values in memory, compared

The specification of a round trip, phrased on two memories only: a source value at `a` and its copy at `b`.
-/
set_option linter.unusedSimpArgs false
set_option linter.unusedSectionVars false

namespace Cista.Ser

/-- A memory with the machine and the pointer kind its contents are for. -/
structure Side where
  host : Endian
  raw : Bool
  mem : Mem

/-- Target of the pointer at `a`. -/
def Side.ptr (s : Side) (a : Nat) : Option Nat := ptrAt s.host s.raw s.mem a
/-- Unsigned number of `w` bytes at `a`. -/
def Side.nat (s : Side) (a w : Nat) : Nat := rdN s.host s.mem a w

/-- The value at `b` (memory `t`) equals the value at `a` (memory `s`): same numbers, same characters, same alternatives, same
number of elements, element by element; hash tables have the same counters and control bytes, and the same entries in the slots
in use (an empty table points to a copy of the empty group).  `R v o` says which target `o` a pointer member with source target `v` must have.
Containers of the copy do not own their memory. -/
def Same (s t : Side) (R : Nat → Option Nat → Prop) : Ty → Nat → Nat → Prop
  | .int w, a, b => t.nat b w = s.nat a w
  | .blob n _, a, b => rd t.mem b n = rd s.mem a n
  | .ptr p, a, b =>
    match p, s.ptr a with
    | .void, _ => t.ptr b = none
    | .obj _, none => t.ptr b = none
    | .obj _, some v => R v (t.ptr b)
  | .vec sw _ ty, a, b => t.nat (b + 8) sw = s.nat (a + 8) sw ∧ t.nat (b + 8 + sw) sw = s.nat (a + 8) sw ∧ t.mem (b + 8 + 2 * sw) = 0#8 ∧
      ((s.nat (a + 8) sw = 0 ∧ t.ptr b = none) ∨ ∃ x y, s.ptr a = some x ∧ t.ptr b = some y ∧
        ∀ i, i < s.nat (a + 8) sw → Same s t R ty (x + i * ty.sizeof) (y + i * ty.sizeof))
  | .str, a, b => t.mem b = s.mem a ∧ ((s.mem a = 1#8 ∧ rd t.mem b 16 = rd s.mem a 16) ∨
      (s.mem a = 0#8 ∧ t.mem (b + 1) = 0#8 ∧ t.nat (b + 4) 4 = s.nat (a + 4) 4 ∧
        ((s.ptr (a + 8) = none ∧ t.ptr (b + 8) = none) ∨ ∃ x y, s.ptr (a + 8) = some x ∧ t.ptr (b + 8) = some y ∧
          rd t.mem y (s.nat (a + 4) 4) = rd s.mem x (s.nat (a + 4) 4))))
  | .uptr ty, a, b => t.mem (b + 8) = 0#8 ∧
      ((s.ptr a = none ∧ t.ptr b = none) ∨ ∃ x y, s.ptr a = some x ∧ t.ptr b = some y ∧ Same s t R ty x y)
  | .hash ty, a, b => t.nat (b + 16) 8 = s.nat (a + 16) 8 ∧ t.nat (b + 24) 8 = s.nat (a + 24) 8 ∧ t.nat (b + 32) 8 = s.nat (a + 32) 8 ∧
      t.mem (b + 40) = 0#8 ∧
      ((s.ptr a = none ∧ s.nat (a + 24) 8 = 0 ∧ s.nat (a + 16) 8 = 0 ∧ t.ptr b = none ∧ ∃ c, t.ptr (b + 8) = some c ∧ rd t.mem c 16 = emptyGroup) ∨
        ∃ x y, s.ptr a = some x ∧ t.ptr b = some y ∧ s.ptr (a + 8) = some (x + s.nat (a + 24) 8 * ty.sizeof) ∧
          t.ptr (b + 8) = some (y + s.nat (a + 24) 8 * ty.sizeof) ∧
          rd t.mem (y + s.nat (a + 24) 8 * ty.sizeof) (s.nat (a + 24) 8 + 9) = rd s.mem (x + s.nat (a + 24) 8 * ty.sizeof) (s.nat (a + 24) 8 + 9) ∧
          ∀ i, i < s.nat (a + 24) 8 → Full s.mem (x + s.nat (a + 24) 8 * ty.sizeof) i →
            Same s t R ty (x + i * ty.sizeof) (y + i * ty.sizeof))
  | .opt ty, a, b => t.mem b = s.mem a ∧ (s.mem a = 0#8 ∨ (s.mem a = 1#8 ∧ Same s t R ty (a + ty.alignof) (b + ty.alignof)))
  | .var ib so _ _ n ty, a, b => t.nat b ib = s.nat a ib ∧ ∃ i : Fin n, s.nat a ib = i.1 ∧ Same s t R (ty i) (a + so) (b + so)
  | .arr n ty, a, b => ∀ i, i < n → Same s t R ty (a + i * ty.sizeof) (b + i * ty.sizeof)
  | .idx ty, a, b => Same s t R ty a b
  | .agg _ _ n off ty, a, b => ∀ i : Fin n, Same s t R (ty i) (a + off i) (b + off i)

/-- Inside the value at `a` and its copy at `b`, the addresses `v` and `y` correspond: an indexed value, the target of a
`unique_ptr`, or any place in the storage of an indexed vector. -/
def Corr (s t : Side) : Ty → (a b v y : Nat) → Prop
  | .vec sw ix ty, a, b, v, y => ∃ el el', s.ptr a = some el ∧ t.ptr b = some el' ∧
      ((ix = true ∧ el ≤ v ∧ v < el + s.nat (a + 8) sw * ty.sizeof ∧ y = el' + (v - el)) ∨
        ∃ i, i < s.nat (a + 8) sw ∧ Corr s t ty (el + i * ty.sizeof) (el' + i * ty.sizeof) v y)
  | .uptr ty, a, b, v, y => ∃ el el', s.ptr a = some el ∧ t.ptr b = some el' ∧ ((v = el ∧ y = el') ∨ Corr s t ty el el' v y)
  | .hash ty, a, b, v, y => ∃ el el' c, s.ptr a = some el ∧ t.ptr b = some el' ∧ s.ptr (a + 8) = some c ∧
      ∃ i, i < s.nat (a + 24) 8 ∧ Full s.mem c i ∧ Corr s t ty (el + i * ty.sizeof) (el' + i * ty.sizeof) v y
  | .opt ty, a, b, v, y => s.mem a = 1#8 ∧ Corr s t ty (a + ty.alignof) (b + ty.alignof) v y
  | .var ib so _ _ n ty, a, b, v, y => ∃ i : Fin n, s.nat a ib = i.1 ∧ Corr s t (ty i) (a + so) (b + so) v y
  | .arr n ty, a, b, v, y => ∃ i, i < n ∧ Corr s t ty (a + i * ty.sizeof) (b + i * ty.sizeof) v y
  | .idx ty, a, b, v, y => (v = a ∧ y = b) ∨ Corr s t ty a b v y
  | .agg _ _ n off ty, a, b, v, y => ∃ i : Fin n, Corr s t (ty i) (a + off i) (b + off i) v y
  | .int _, _, _, _, _ => False
  | .blob _ _, _, _, _, _ => False
  | .ptr _, _, _, _, _ => False
  | .str, _, _, _, _ => False

/-- The objects inside the value at `a` that pointers may refer to: address, size and alignment; `ex` objects only by their
address, the others (storage of an indexed vector) also by an address inside. -/
def Obj (s : Side) : Ty → (a : Nat) → (ex : Bool) → (v n al : Nat) → Prop
  | .vec sw ix ty, a, ex, v, n, al => ∃ el, s.ptr a = some el ∧
      ((ix = true ∧ 0 < s.nat (a + 8) sw ∧ ex = false ∧ v = el ∧ n = s.nat (a + 8) sw * ty.sizeof ∧ al = ty.alignof) ∨
        ∃ i, i < s.nat (a + 8) sw ∧ Obj s ty (el + i * ty.sizeof) ex v n al)
  | .uptr ty, a, ex, v, n, al => ∃ el, s.ptr a = some el ∧
      ((ex = true ∧ v = el ∧ n = ty.sizeof ∧ al = ty.alignof) ∨ Obj s ty el ex v n al)
  | .hash ty, a, ex, v, n, al => ∃ el c, s.ptr a = some el ∧ s.ptr (a + 8) = some c ∧
      ∃ i, i < s.nat (a + 24) 8 ∧ Full s.mem c i ∧ Obj s ty (el + i * ty.sizeof) ex v n al
  | .opt ty, a, ex, v, n, al => s.mem a = 1#8 ∧ Obj s ty (a + ty.alignof) ex v n al
  | .var ib so _ _ k ty, a, ex, v, n, al => ∃ i : Fin k, s.nat a ib = i.1 ∧ Obj s (ty i) (a + so) ex v n al
  | .arr k ty, a, ex, v, n, al => ∃ i, i < k ∧ Obj s ty (a + i * ty.sizeof) ex v n al
  | .idx ty, a, ex, v, n, al => (ex = true ∧ v = a ∧ n = ty.sizeof ∧ al = ty.alignof) ∨ Obj s ty a ex v n al
  | .agg _ _ k off ty, a, ex, v, n, al => ∃ i : Fin k, Obj s (ty i) (a + off i) ex v n al
  | .int _, _, _, _, _, _ => False
  | .blob _ _, _, _, _, _, _ => False
  | .ptr _, _, _, _, _, _ => False
  | .str, _, _, _, _, _ => False

/-- Every pointer member inside the value at `a` with pointee type `n` and target `v` satisfies `P n v`. -/
def Ptrs (s : Side) (P : Nat → Nat → Prop) : Ty → Nat → Prop
  | .ptr p, a =>
    match p, s.ptr a with
    | .void, _ => True
    | .obj _, none => True
    | .obj n, some v => P n v
  | .vec sw _ ty, a => ∀ el, s.ptr a = some el → ∀ i, i < s.nat (a + 8) sw → Ptrs s P ty (el + i * ty.sizeof)
  | .uptr ty, a => ∀ el, s.ptr a = some el → Ptrs s P ty el
  | .hash ty, a => ∀ el c, s.ptr a = some el → s.ptr (a + 8) = some c → ∀ i, i < s.nat (a + 24) 8 → Full s.mem c i →
      Ptrs s P ty (el + i * ty.sizeof)
  | .opt ty, a => s.mem a = 1#8 → Ptrs s P ty (a + ty.alignof)
  | .var ib so _ _ n ty, a => ∀ i : Fin n, s.nat a ib = i.1 → Ptrs s P (ty i) (a + so)
  | .arr n ty, a => ∀ i, i < n → Ptrs s P ty (a + i * ty.sizeof)
  | .idx ty, a => Ptrs s P ty a
  | .agg _ _ n off ty, a => ∀ i : Fin n, Ptrs s P (ty i) (a + off i)
  | .int _, _ => True
  | .blob _ _, _ => True
  | .str, _ => True

/-- An object of the given size and alignment at `v` lies in every serialized object that covers `v` (pointers are well typed). -/
def Typed (s : Side) (t : Ty) (a : Nat) (sz al' : Nat) (v : Nat) : Prop :=
  (∀ n al, Obj s t a true v n al → sz ≤ n ∧ al' ∣ al) ∧
  ∀ el n al, Obj s t a false el n al → el ≤ v → v < el + n → v + sz ≤ el + n ∧ al' ∣ al ∧ al' ∣ v - el

/-- The storages of indexed vectors are separate. -/
def Apart (s : Side) (t : Ty) (a : Nat) : Prop :=
  ∀ el n al el' n' al', Obj s t a false el n al → Obj s t a false el' n' al' → el ≤ el' → el' < el + n → el' = el ∧ n' = n

/-! ## From the layout to the specification -/

/-- Source side. -/
def SEnv.side (e : SEnv) : Side := ⟨e.host, e.raw, e.mem⟩
/-- Loaded side. -/
def DEnv.side (d : DEnv) (m : Mem) : Side := ⟨d.host, d.raw, m⟩

theorem ChainFrom.all {R : Nat → Rel} {A : Nat × Leaf → Prop} {B : Place → Prop} :
    ∀ (k i L L' : Nat) (lv : List (Nat × Leaf)) (pl : List Place),
    (∀ j, i ≤ j → j < i + k → ∀ M M' lv pl, R j M M' lv pl → (∀ l ∈ lv, A l) ∧ ∀ g ∈ pl, B g) →
    ChainFrom R i k L L' lv pl → (∀ l ∈ lv, A l) ∧ ∀ g ∈ pl, B g
  | 0, i, L, L', lv, pl, _, h => by
    obtain ⟨rfl, rfl, rfl⟩ := h
    exact ⟨(fun l hl => by simp at hl), fun l hl => by simp at hl⟩
  | k + 1, i, L, L', lv, pl, hR, h => by
    obtain ⟨M, lv1, lv2, pl1, pl2, h1, h2, rfl, rfl⟩ := h
    obtain ⟨a1, b1⟩ := hR i (Nat.le_refl _) (by omega) _ _ _ _ h1
    obtain ⟨a2, b2⟩ := ChainFrom.all k (i + 1) M L' lv2 pl2 (fun j h1 h2 => hR j (by omega) (by omega)) h2
    refine ⟨fun l hl => ?_, fun g hg => ?_⟩
    · rcases List.mem_append.1 hl with h | h
      · exact a1 l h
      · exact a2 l h
    · rcases List.mem_append.1 hg with h | h
      · exact b1 g h
      · exact b2 g h

theorem ChainFrom.each {R : Nat → Rel} {A : Nat × Leaf → Prop} {C : Nat → Prop} :
    ∀ (k i L L' : Nat) (lv : List (Nat × Leaf)) (pl : List Place),
    (∀ j, i ≤ j → j < i + k → ∀ M M' lv pl, R j M M' lv pl → (∀ l ∈ lv, A l) → C j) →
    ChainFrom R i k L L' lv pl → (∀ l ∈ lv, A l) → ∀ j, i ≤ j → j < i + k → C j
  | 0, i, L, L', lv, pl, _, _, _ => fun j h1 h2 => by omega
  | k + 1, i, L, L', lv, pl, hR, h, ha => by
    obtain ⟨M, lv1, lv2, pl1, pl2, h1, h2, rfl, rfl⟩ := h
    intro j hj hk
    by_cases he : j = i
    · subst he
      exact hR j (Nat.le_refl _) (by omega) _ _ _ _ h1 fun l hl => ha l (List.mem_append_left _ hl)
    · exact ChainFrom.each k (i + 1) M L' lv2 pl2 (fun j h1 h2 => hR j (by omega) (by omega)) h2
        (fun l hl => ha l (List.mem_append_right _ hl)) j (by omega) (by omega)

theorem ChainFrom.any {R : Nat → Rel} {A : Nat × Leaf → Prop} {B : Place → Prop} {C : Nat → Prop} :
    ∀ (k i L L' : Nat) (lv : List (Nat × Leaf)) (pl : List Place),
    (∀ j, i ≤ j → j < i + k → ∀ M M' lv pl, R j M M' lv pl → (∀ l ∈ lv, A l) → (C j ↔ ∃ g ∈ pl, B g)) →
    ChainFrom R i k L L' lv pl → (∀ l ∈ lv, A l) → ((∃ j, i ≤ j ∧ j < i + k ∧ C j) ↔ ∃ g ∈ pl, B g)
  | 0, i, L, L', lv, pl, _, h, _ => by
    obtain ⟨rfl, rfl, rfl⟩ := h
    constructor
    · rintro ⟨j, h1, h2, _⟩; omega
    · rintro ⟨g, hg, _⟩; simp at hg
  | k + 1, i, L, L', lv, pl, hR, h, ha => by
    obtain ⟨M, lv1, lv2, pl1, pl2, h1, h2, rfl, rfl⟩ := h
    have i1 := hR i (Nat.le_refl _) (by omega) _ _ _ _ h1 fun l hl => ha l (List.mem_append_left _ hl)
    have i2 := ChainFrom.any k (i + 1) M L' lv2 pl2 (fun j h1 h2 => hR j (by omega) (by omega)) h2
      (fun l hl => ha l (List.mem_append_right _ hl))
    constructor
    · rintro ⟨j, hj, hk, hc⟩
      by_cases he : j = i
      · subst he
        obtain ⟨g, hg, hb⟩ := i1.1 hc
        exact ⟨g, List.mem_append_left _ hg, hb⟩
      · obtain ⟨g, hg, hb⟩ := i2.1 ⟨j, by omega, by omega, hc⟩
        exact ⟨g, List.mem_append_right _ hg, hb⟩
    · rintro ⟨g, hg, hb⟩
      rcases List.mem_append.1 hg with h | h
      · exact ⟨i, Nat.le_refl _, by omega, i1.2 ⟨g, h, hb⟩⟩
      · obtain ⟨j, hj, hk, hc⟩ := i2.2 ⟨g, h, hb⟩
        exact ⟨j, by omega, by omega, hc⟩

variable {e : SEnv} {d : DEnv} {base N : Nat} {G : Option Nat → Pointee → Option Nat → Prop}

/-- What the layout says about source objects. -/
theorem Lay.source {M : Nat} {P : Nat → Nat → Prop} : ∀ (t : Ty), t.Al M → ∀ (a p L L' : Nat) (lv : List (Nat × Leaf)) (pl : List Place),
    Lay e t a p L L' lv pl → (Ptrs e.side P t a → ∀ l ∈ lv, ∀ v n, l.2 = .ptr (some v) (.obj n) → P n v) ∧
    ∀ g ∈ pl, g.al ∣ M ∧ Obj e.side t a g.exact g.v g.n g.al := by
  intro t
  induction t with
  | int w =>
    intro _ a p L L' lv pl h
    obtain ⟨rfl, rfl, rfl⟩ := h
    refine ⟨fun _ l hl v n hh => ?_, fun g hg => by simp at hg⟩
    rw [List.mem_singleton.1 hl] at hh
    cases hh
  | blob s al =>
    intro _ a p L L' lv pl h
    obtain ⟨rfl, rfl, rfl⟩ := h
    refine ⟨fun _ l hl v n hh => ?_, fun g hg => by simp at hg⟩
    rw [List.mem_singleton.1 hl] at hh
    cases hh
  | ptr pt =>
    intro _ a p L L' lv pl h
    obtain ⟨rfl, rfl, rfl⟩ := h
    refine ⟨fun hp l hl v n hh => ?_, fun g hg => by simp at hg⟩
    rw [List.mem_singleton.1 hl] at hh
    simp only [Leaf.ptr.injEq] at hh
    obtain ⟨h1, rfl⟩ := hh
    unfold Ptrs at hp
    rw [show e.side.ptr a = ptrAt e.host e.raw e.mem a from rfl, h1] at hp
    exact hp
  | vec sw ix t ih =>
    intro hM a p L L' lv pl h
    have hv : ∀ s l, l ∈ vecLeaves e sw a p s → ∀ v n, l.2 ≠ .ptr (some v) (.obj n) := by
      intro s l hl v n hh
      simp only [vecLeaves, List.mem_cons, List.not_mem_nil, or_false] at hl
      rcases hl with rfl | rfl | rfl | rfl <;> cases hh
    rcases h with ⟨h0, rfl, rfl, rfl⟩ | ⟨hn, el, s, lv', pl', hel, hs, hals, hc, rfl, rfl⟩
    · exact ⟨fun _ l hl v n hh => absurd hh (hv _ l hl v n), fun g hg => by simp at hg⟩
    · refine ⟨fun hp l hl v n hh => ?_, fun g hg => ?_⟩
      · rcases List.mem_append.1 hl with hl | hl
        · exact absurd hh (hv _ l hl v n)
        · have := ChainFrom.all (A := fun l => ∀ v n, l.2 = .ptr (some v) (.obj n) → P n v) (B := fun _ => True) _ 0 _ _ _ _
            (fun j _ hj M M' lv pl hl => ⟨(ih hM.2 _ _ _ _ _ _ hl).1 (hp el hel j (by simp only [Side.nat, SEnv.side]; omega)), fun _ _ => trivial⟩) hc
          exact this.1 l hl v n hh
      · rcases List.mem_append.1 hg with hg | hg
        · cases ix
          · simp at hg
          · simp only [if_true, List.mem_singleton] at hg
            subst hg
            exact ⟨hM.2.dvd, el, hel, Or.inl ⟨rfl, hn, rfl, rfl, rfl, rfl⟩⟩
        · have := ChainFrom.all (A := fun _ => True) (B := fun g => g.al ∣ M ∧ Obj e.side (.vec sw ix t) a g.exact g.v g.n g.al) _ 0 _ _ _ _
            (fun j _ hj M' M'' lv pl hl => ⟨fun _ _ => trivial, fun g hg => by
              obtain ⟨k1, k2⟩ := (ih hM.2 _ _ _ _ _ _ hl).2 g hg
              exact ⟨k1, el, hel, Or.inr ⟨j, by simp only [Side.nat, SEnv.side]; omega, k2⟩⟩⟩) hc
          exact this.2 g hg
  | str =>
    intro _ a p L L' lv pl h
    obtain ⟨rfl, h⟩ := h
    refine ⟨fun _ l hl v n hh => ?_, fun g hg => by simp at hg⟩
    rcases h with ⟨_, _, rfl⟩ | ⟨_, _, _, _, rfl⟩ | ⟨_, _, _, _, _, rfl⟩
    · rw [List.mem_singleton.1 hl] at hh
      cases hh
    · simp only [strLeaves, List.mem_cons, List.not_mem_nil, or_false] at hl
      rcases hl with rfl | rfl | rfl | rfl <;> cases hh
    · simp only [strLeaves, List.mem_append, List.mem_cons, List.not_mem_nil, or_false] at hl
      rcases hl with (rfl | rfl | rfl | rfl) | rfl <;> cases hh
  | uptr t ih =>
    intro hM a p L L' lv pl h
    have hv : ∀ s l, l ∈ [(p, Leaf.own s), (p + 8, Leaf.raw [0#8])] → ∀ v n, l.2 ≠ .ptr (some v) (.obj n) := by
      intro s l hl v n hh
      simp only [List.mem_cons, List.not_mem_nil, or_false] at hl
      rcases hl with rfl | rfl <;> cases hh
    rcases h with ⟨h0, rfl, rfl, rfl⟩ | ⟨el, s, lv', pl', hel, hs, hals, hc, rfl, rfl⟩
    · exact ⟨fun _ l hl v n hh => absurd hh (hv _ l hl v n), fun g hg => by simp at hg⟩
    · obtain ⟨k1, k2⟩ := ih hM.2 _ _ _ _ _ _ hc
      refine ⟨fun hp l hl v n hh => ?_, fun g hg => ?_⟩
      · rcases List.mem_append.1 hl with hl | hl
        · exact absurd hh (hv _ l hl v n)
        · exact k1 (hp el hel) l hl v n hh
      · rcases List.mem_cons.1 hg with hg | hg
        · subst hg
          exact ⟨hM.2.dvd, el, hel, Or.inl ⟨rfl, rfl, rfl, rfl⟩⟩
        · exact ⟨(k2 g hg).1, el, hel, Or.inr (k2 g hg).2⟩
  | hash t ih =>
    intro hM a p L L' lv pl h
    have hv : ∀ s c l, l ∈ hashLeaves e a p s c → ∀ v n, l.2 ≠ .ptr (some v) (.obj n) := by
      intro s c l hl v n hh
      simp only [hashLeaves, List.mem_cons, List.not_mem_nil, or_false] at hl
      rcases hl with rfl | rfl | rfl | rfl | rfl | rfl <;> cases hh
    rcases h with ⟨hel, hcap, hsz, rfl, rfl, rfl⟩ | ⟨el, s, lv', hel, hct, hn, htab, hs, hals, hc, rfl⟩
    · refine ⟨fun _ l hl v n hh => ?_, fun g hg => by simp at hg⟩
      rcases List.mem_append.1 hl with hl | hl
      · exact absurd hh (hv _ _ l hl v n)
      · rw [List.mem_singleton.1 hl] at hh; cases hh
    · refine ⟨fun hp l hl v n hh => ?_, fun g hg => ?_⟩
      · rcases List.mem_append.1 hl with hl | hl
        · exact absurd hh (hv _ _ l hl v n)
        · rcases List.mem_cons.1 hl with hl | hl
          · rw [hl] at hh; cases hh
          · have := ChainFrom.all (A := fun l => ∀ v n, l.2 = .ptr (some v) (.obj n) → P n v) (B := fun _ => True) _ 0 _ _ _ _
              (fun j _ hj M M' lv pl hl => ⟨fun l hl' => by
                by_cases hf : Full e.mem (el + rdN e.host e.mem (a + 24) 8 * t.sizeof) j
                · exact (ih hM.2 _ _ _ _ _ _ (hl.1 hf)).1 (hp el _ hel hct j (by simp only [Side.nat, SEnv.side]; omega) hf) l hl'
                · rw [(hl.2 hf).2.1] at hl'; simp at hl', fun _ _ => trivial⟩) hc
            exact this.1 l hl v n hh
      · have := ChainFrom.all (A := fun _ => True) (B := fun g => g.al ∣ M ∧ Obj e.side (.hash t) a g.exact g.v g.n g.al) _ 0 _ _ _ _
            (fun j _ hj M' M'' lv pl hl => ⟨fun _ _ => trivial, fun g hg => by
              by_cases hf : Full e.mem (el + rdN e.host e.mem (a + 24) 8 * t.sizeof) j
              · obtain ⟨k1, k2⟩ := (ih hM.2 _ _ _ _ _ _ (hl.1 hf)).2 g hg
                exact ⟨k1, el, _, hel, hct, j, by simp only [Side.nat, SEnv.side]; omega, hf, k2⟩
              · rw [(hl.2 hf).2.2] at hg; simp at hg⟩) hc
        exact this.2 g hg
  | opt t ih =>
    intro hM a p L L' lv pl h
    rcases h with ⟨h0, rfl, rfl, rfl⟩ | ⟨h1, lv', hc, rfl⟩
    · refine ⟨fun _ l hl v n hh => ?_, fun g hg => by simp at hg⟩
      rw [List.mem_singleton.1 hl] at hh
      cases hh
    · obtain ⟨k1, k2⟩ := ih hM _ _ _ _ _ _ hc
      refine ⟨fun hp l hl v n hh => ?_, fun g hg => ⟨(k2 g hg).1, h1, (k2 g hg).2⟩⟩
      rcases List.mem_cons.1 hl with hl | hl
      · rw [hl] at hh; cases hh
      · exact k1 (hp h1) l hl v n hh
  | var ib so s al n t ih =>
    intro hM a p L L' lv pl h
    obtain ⟨i, lv', hi, hc, rfl⟩ := h
    obtain ⟨k1, k2⟩ := ih i (hM.2 i) _ _ _ _ _ _ hc
    refine ⟨fun hp l hl v n hh => ?_, fun g hg => ⟨(k2 g hg).1, i, hi, (k2 g hg).2⟩⟩
    rcases List.mem_cons.1 hl with hl | hl
    · rw [hl] at hh; cases hh
    · exact k1 (hp i hi) l hl v n hh
  | arr n t ih =>
    intro hM a p L L' lv pl h
    refine ⟨fun hp => ?_, ?_⟩
    · exact (ChainFrom.all (A := fun l => ∀ v n, l.2 = .ptr (some v) (.obj n) → P n v) (B := fun _ => True) _ 0 _ _ _ _
        (fun j _ hj M M' lv pl hl => ⟨(ih hM _ _ _ _ _ _ hl).1 (hp j (by omega)), fun _ _ => trivial⟩) h).1
    · exact (ChainFrom.all (A := fun _ => True) (B := fun g => g.al ∣ M ∧ Obj e.side (.arr n t) a g.exact g.v g.n g.al) _ 0 _ _ _ _
        (fun j _ hj M' M'' lv pl hl => ⟨fun _ _ => trivial, fun g hg => by
          obtain ⟨k1, k2⟩ := (ih hM _ _ _ _ _ _ hl).2 g hg
          exact ⟨k1, j, by omega, k2⟩⟩) h).2
  | idx t ih =>
    intro hM a p L L' lv pl h
    obtain ⟨pl', hc, rfl⟩ := h
    obtain ⟨k1, k2⟩ := ih hM _ _ _ _ _ _ hc
    refine ⟨k1, fun g hg => ?_⟩
    rcases List.mem_cons.1 hg with hg | hg
    · subst hg
      exact ⟨Ty.Al.dvd (t := t) hM, Or.inl ⟨rfl, rfl, rfl, rfl⟩⟩
    · exact ⟨(k2 g hg).1, Or.inr (k2 g hg).2⟩
  | agg s al n off t ih =>
    intro hM a p L L' lv pl h
    refine ⟨fun hp => ?_, ?_⟩
    · exact (ChainFrom.all (A := fun l => ∀ v n, l.2 = .ptr (some v) (.obj n) → P n v) (B := fun _ => True) _ 0 _ _ _ _
        (fun j _ hj M M' lv pl hl => by
          obtain ⟨hjn, hl⟩ := hl
          exact ⟨(ih ⟨j, hjn⟩ (hM.2 _) _ _ _ _ _ _ hl).1 (hp ⟨j, hjn⟩), fun _ _ => trivial⟩) h).1
    · exact (ChainFrom.all (A := fun _ => True) (B := fun g => g.al ∣ M ∧ Obj e.side (.agg s al n off t) a g.exact g.v g.n g.al) _ 0 _ _ _ _
        (fun j _ hj M' M'' lv pl hl => ⟨fun _ _ => trivial, fun g hg => by
          obtain ⟨hjn, hl⟩ := hl
          obtain ⟨k1, k2⟩ := (ih ⟨j, hjn⟩ (hM.2 _) _ _ _ _ _ _ hl).2 g hg
          exact ⟨k1, ⟨j, hjn⟩, k2⟩⟩) h).2

end Cista.Ser

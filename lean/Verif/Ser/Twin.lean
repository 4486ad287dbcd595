import Verif.Ser.Api

/-!
# Corresponding values, read-only loading
-/
set_option linter.unusedSimpArgs false
set_option linter.unusedSectionVars false

namespace Cista.Ser

/-! ## Corresponding values -/

/-- Inside the value of the first type at `a` and its copy at `b`, the value of the second type at `v` corresponds to the one at
`y`: the same member, element, alternative or owned object. -/
inductive Twin (s t : Side) : Ty → Nat → Nat → Ty → Nat → Nat → Prop
  | refl (ty : Ty) (a b : Nat) : Twin s t ty a b ty a b
  | vec {sw : Nat} {ix : Bool} {ty u : Ty} {a b x y v w : Nat} (i : Nat) : s.ptr a = some x → t.ptr b = some y → i < s.nat (a + 8) sw →
      Twin s t ty (x + i * ty.sizeof) (y + i * ty.sizeof) u v w → Twin s t (.vec sw ix ty) a b u v w
  | uptr {ty u : Ty} {a b x y v w : Nat} : s.ptr a = some x → t.ptr b = some y → Twin s t ty x y u v w → Twin s t (.uptr ty) a b u v w
  | hash {ty u : Ty} {a b x y c v w : Nat} (i : Nat) : s.ptr a = some x → t.ptr b = some y → s.ptr (a + 8) = some c →
      i < s.nat (a + 24) 8 → Full s.mem c i →
      Twin s t ty (x + i * ty.sizeof) (y + i * ty.sizeof) u v w → Twin s t (.hash ty) a b u v w
  | opt {ty u : Ty} {a b v w : Nat} : s.mem a = 1#8 → Twin s t ty (a + ty.alignof) (b + ty.alignof) u v w → Twin s t (.opt ty) a b u v w
  | var {ib so sz al n : Nat} {ty : Fin n → Ty} {u : Ty} {a b v w : Nat} (i : Fin n) : s.nat a ib = i.1 →
      Twin s t (ty i) (a + so) (b + so) u v w → Twin s t (.var ib so sz al n ty) a b u v w
  | arr {n : Nat} {ty u : Ty} {a b v w : Nat} (i : Nat) : i < n → Twin s t ty (a + i * ty.sizeof) (b + i * ty.sizeof) u v w →
      Twin s t (.arr n ty) a b u v w
  | idx {ty u : Ty} {a b v w : Nat} : Twin s t ty a b u v w → Twin s t (.idx ty) a b u v w
  | agg {sz al n : Nat} {off : Fin n → Nat} {ty : Fin n → Ty} {u : Ty} {a b v w : Nat} (i : Fin n) :
      Twin s t (ty i) (a + off i) (b + off i) u v w → Twin s t (.agg sz al n off ty) a b u v w

variable {s t : Side}

/-- Corresponding values of equal values are equal. -/
theorem Same.twin {R : Nat → Option Nat → Prop} {ty u : Ty} {a b v w : Nat} (h : Twin s t ty a b u v w) :
    Same s t R ty a b → Same s t R u v w := by
  induction h with
  | refl ty a b => exact id
  | vec i h1 h2 hi _ ih =>
    rintro ⟨_, _, _, ⟨h0, _⟩ | ⟨x, y, k1, k2, k3⟩⟩
    · omega
    · rw [h1] at k1; rw [h2] at k2
      injection k1 with k1; injection k2 with k2
      subst k1; subst k2
      exact ih (k3 i hi)
  | uptr h1 h2 _ ih =>
    rintro ⟨_, ⟨h0, _⟩ | ⟨x, y, k1, k2, k3⟩⟩
    · rw [h1] at h0; cases h0
    · rw [h1] at k1; rw [h2] at k2
      injection k1 with k1; injection k2 with k2
      subst k1; subst k2
      exact ih k3
  | hash i h1 h2 h3 hi hf _ ih =>
    rintro ⟨_, _, _, _, ⟨h0, _⟩ | ⟨x, y, k1, k2, k3, _, _, k4⟩⟩
    · rw [h1] at h0; cases h0
    · rw [h1] at k1; rw [h2] at k2; rw [h3] at k3
      injection k1 with k1; injection k2 with k2; injection k3 with k3
      subst k1; subst k2; subst k3
      exact ih (k4 i hi hf)
  | opt h1 _ ih =>
    rintro ⟨_, h0 | ⟨_, k⟩⟩
    · rw [h1] at h0; cases h0
    · exact ih k
  | @var ib so sz al n ty u a b v w i h1 _ ih =>
    rintro ⟨_, i', k1, k2⟩
    have : i' = i := Fin.ext (by omega)
    subst this
    exact ih k2
  | arr i hi _ ih => exact fun h => ih (h i hi)
  | idx _ ih => exact ih
  | agg i _ ih => exact fun h => ih (h i)

theorem Ptrs.twin {P : Nat → Nat → Prop} {ty u : Ty} {a b v w : Nat} (h : Twin s t ty a b u v w) :
    Ptrs s P ty a → Ptrs s P u v := by
  induction h with
  | refl ty a b => exact id
  | vec i h1 h2 hi _ ih => exact fun h => ih (h _ h1 i hi)
  | uptr h1 h2 _ ih => exact fun h => ih (h _ h1)
  | hash i h1 h2 h3 hi hf _ ih => exact fun h => ih (h _ _ h1 h3 i hi hf)
  | opt h1 _ ih => exact fun h => ih (h h1)
  | var i h1 _ ih => exact fun h => ih (h i h1)
  | arr i hi _ ih => exact fun h => ih (h i hi)
  | idx _ ih => exact ih
  | agg i _ ih => exact fun h => ih (h i)

theorem Sub.twin {ty u : Ty} {o : Nat} (h : Sub ty o u) : ∀ a b, Twin s t ty a b u (a + o) (b + o) := by
  induction h with
  | refl t => exact fun a b => .refl t a b
  | idx _ ih => exact fun a b => .idx (ih a b)
  | agg i _ ih =>
    intro a b
    rw [← Nat.add_assoc, ← Nat.add_assoc]
    exact .agg i (ih _ _)
  | arr i hi _ ih =>
    intro a b
    rw [← Nat.add_assoc, ← Nat.add_assoc]
    exact .arr i hi (ih _ _)

/-- `v` is an address a pointer into the serialized value may have: an indexed value, the target of a `unique_ptr`, or inside of
the storage of an indexed vector. -/
def Serialized (s : Side) (t : Ty) (a v : Nat) : Prop :=
  (∃ n al, Obj s t a true v n al) ∨ ∃ el n al, Obj s t a false el n al ∧ el ≤ v ∧ v < el + n

/-- Being serialized, as seen from the copy. -/
theorem serialized_iff {R : Nat → Option Nat → Prop} {v : Nat} : ∀ (ty : Ty) (a b : Nat), Same s t R ty a b →
    (Serialized s ty a v ↔ ∃ y, Corr s t ty a b v y) := by
  intro ty
  have leaf : ∀ {ty : Ty} {a b : Nat}, (∀ ex v n al, ¬ Obj s ty a ex v n al) → (∀ y, ¬ Corr s t ty a b v y) →
      (Serialized s ty a v ↔ ∃ y, Corr s t ty a b v y) := by
    intro ty a b h1 h2
    constructor
    · rintro (⟨n, al, h⟩ | ⟨el, n, al, h, _⟩)
      · exact absurd h (h1 _ _ _ _)
      · exact absurd h (h1 _ _ _ _)
    · rintro ⟨y, h⟩
      exact absurd h (h2 y)
  induction ty with
  | int w => exact fun a b _ => leaf (fun _ _ _ _ h => h) (fun _ h => h)
  | blob s al => exact fun a b _ => leaf (fun _ _ _ _ h => h) (fun _ h => h)
  | ptr p => exact fun a b _ => leaf (fun _ _ _ _ h => h) (fun _ h => h)
  | str => exact fun a b _ => leaf (fun _ _ _ _ h => h) (fun _ h => h)
  | vec sw ix ty ih =>
    rintro a b ⟨_, _, _, ⟨h0, hn⟩ | ⟨x, y, k1, k2, k3⟩⟩
    · constructor
      · rintro (⟨n, al, el, _, ⟨_, h, _⟩ | ⟨i, hi, _⟩⟩ | ⟨el, n, al, ⟨el', _, ⟨_, h, _⟩ | ⟨i, hi, _⟩⟩, _⟩) <;> omega
      · rintro ⟨y, el, el', _, h, _⟩
        rw [hn] at h; cases h
    · constructor
      · rintro (⟨n, al, el, h1, ⟨_, _, h, _⟩ | ⟨i, hi, ho⟩⟩ | ⟨el, n, al, ⟨el', h1, ⟨h2, h3, h4, h5, h6, h7⟩ | ⟨i, hi, ho⟩⟩, h8, h9⟩)
        · cases h
        · rw [k1] at h1; injection h1 with h1; subst h1
          obtain ⟨z, hz⟩ := (ih _ _ (k3 i hi)).1 (Or.inl ⟨n, al, ho⟩)
          exact ⟨z, x, y, k1, k2, Or.inr ⟨i, hi, hz⟩⟩
        · subst h5
          rw [k1] at h1; injection h1 with h1; subst h1
          exact ⟨y + (v - x), x, y, k1, k2, Or.inl ⟨h2, h8, by omega, rfl⟩⟩
        · rw [k1] at h1; injection h1 with h1; subst h1
          obtain ⟨z, hz⟩ := (ih _ _ (k3 i hi)).1 (Or.inr ⟨el, n, al, ho, h8, h9⟩)
          exact ⟨z, x, y, k1, k2, Or.inr ⟨i, hi, hz⟩⟩
      · rintro ⟨z, el, el', h1, h2, ⟨h3, h4, h5, h6⟩ | ⟨i, hi, hc⟩⟩
        · have hpos : 0 < s.nat (a + 8) sw := Nat.pos_of_ne_zero fun h => by rw [h] at h5; omega
          exact Or.inr ⟨el, _, _, ⟨el, h1, Or.inl ⟨h3, hpos, rfl, rfl, rfl, rfl⟩⟩, h4, h5⟩
        · rw [k1] at h1; injection h1 with h1; subst h1
          rw [k2] at h2; injection h2 with h2; subst h2
          rcases (ih _ _ (k3 i hi)).2 ⟨z, hc⟩ with ⟨n, al, ho⟩ | ⟨el, n, al, ho, h⟩
          · exact Or.inl ⟨n, al, x, k1, Or.inr ⟨i, hi, ho⟩⟩
          · exact Or.inr ⟨el, n, al, ⟨x, k1, Or.inr ⟨i, hi, ho⟩⟩, h⟩
  | uptr ty ih =>
    rintro a b ⟨_, ⟨h0, hn⟩ | ⟨x, y, k1, k2, k3⟩⟩
    · constructor
      · rintro (⟨n, al, el, h, _⟩ | ⟨el, n, al, ⟨el', h, _⟩, _⟩) <;> · rw [h0] at h; cases h
      · rintro ⟨y, el, el', h, _⟩
        rw [h0] at h; cases h
    · constructor
      · rintro (⟨n, al, el, h1, ⟨_, h, _⟩ | ho⟩ | ⟨el, n, al, ⟨el', h1, ⟨h, _⟩ | ho⟩, h8⟩)
        · rw [k1] at h1; injection h1 with h1; subst h1
          exact ⟨y, x, y, k1, k2, Or.inl ⟨h, rfl⟩⟩
        · rw [k1] at h1; injection h1 with h1; subst h1
          obtain ⟨z, hz⟩ := (ih _ _ k3).1 (Or.inl ⟨n, al, ho⟩)
          exact ⟨z, x, y, k1, k2, Or.inr hz⟩
        · cases h
        · rw [k1] at h1; injection h1 with h1; subst h1
          obtain ⟨z, hz⟩ := (ih _ _ k3).1 (Or.inr ⟨el, n, al, ho, h8⟩)
          exact ⟨z, x, y, k1, k2, Or.inr hz⟩
      · rintro ⟨z, el, el', h1, h2, ⟨h3, h4⟩ | hc⟩
        · exact Or.inl ⟨_, _, el, h1, Or.inl ⟨rfl, h3, rfl, rfl⟩⟩
        · rw [k1] at h1; injection h1 with h1; subst h1
          rw [k2] at h2; injection h2 with h2; subst h2
          rcases (ih _ _ k3).2 ⟨z, hc⟩ with ⟨n, al, ho⟩ | ⟨el, n, al, ho, h⟩
          · exact Or.inl ⟨n, al, x, k1, Or.inr ho⟩
          · exact Or.inr ⟨el, n, al, ⟨x, k1, Or.inr ho⟩, h⟩
  | hash ty ih =>
    rintro a b ⟨_, _, _, _, ⟨h0, _⟩ | ⟨x, y, k1, k2, k3, _, _, k4⟩⟩
    · constructor
      · rintro (⟨n, al, el, c, h, _⟩ | ⟨el, n, al, ⟨el', c, h, _⟩, _⟩) <;> · rw [h0] at h; cases h
      · rintro ⟨y, el, el', c, h, _⟩
        rw [h0] at h; cases h
    · constructor
      · rintro (⟨n, al, el, c, h1, h2, i, hi, hf, ho⟩ | ⟨el, n, al, ⟨el', c, h1, h2, i, hi, hf, ho⟩, h8⟩)
        · rw [k1] at h1; injection h1 with h1; subst h1
          rw [k3] at h2; injection h2 with h2; subst h2
          obtain ⟨z, hz⟩ := (ih _ _ (k4 i hi hf)).1 (Or.inl ⟨n, al, ho⟩)
          exact ⟨z, x, y, _, k1, k2, k3, i, hi, hf, hz⟩
        · rw [k1] at h1; injection h1 with h1; subst h1
          rw [k3] at h2; injection h2 with h2; subst h2
          obtain ⟨z, hz⟩ := (ih _ _ (k4 i hi hf)).1 (Or.inr ⟨el, n, al, ho, h8⟩)
          exact ⟨z, x, y, _, k1, k2, k3, i, hi, hf, hz⟩
      · rintro ⟨z, el, el', c, h1, h2, h3, i, hi, hf, hc⟩
        rw [k1] at h1; injection h1 with h1; subst h1
        rw [k2] at h2; injection h2 with h2; subst h2
        rw [k3] at h3; injection h3 with h3; subst h3
        rcases (ih _ _ (k4 i hi hf)).2 ⟨z, hc⟩ with ⟨n, al, ho⟩ | ⟨el, n, al, ho, h⟩
        · exact Or.inl ⟨n, al, x, _, k1, k3, i, hi, hf, ho⟩
        · exact Or.inr ⟨el, n, al, ⟨x, _, k1, k3, i, hi, hf, ho⟩, h⟩
  | opt ty ih =>
    rintro a b ⟨_, h0 | ⟨h1, k⟩⟩
    · constructor
      · rintro (⟨n, al, h, _⟩ | ⟨el, n, al, ⟨h, _⟩, _⟩) <;> · rw [h0] at h; cases h
      · rintro ⟨y, h, _⟩
        rw [h0] at h; cases h
    · constructor
      · rintro (⟨n, al, h, ho⟩ | ⟨el, n, al, ⟨h, ho⟩, h8⟩)
        · obtain ⟨z, hz⟩ := (ih _ _ k).1 (Or.inl ⟨n, al, ho⟩)
          exact ⟨z, h1, hz⟩
        · obtain ⟨z, hz⟩ := (ih _ _ k).1 (Or.inr ⟨el, n, al, ho, h8⟩)
          exact ⟨z, h1, hz⟩
      · rintro ⟨z, _, hc⟩
        rcases (ih _ _ k).2 ⟨z, hc⟩ with ⟨n, al, ho⟩ | ⟨el, n, al, ho, h⟩
        · exact Or.inl ⟨n, al, h1, ho⟩
        · exact Or.inr ⟨el, n, al, ⟨h1, ho⟩, h⟩
  | var ib so sz al' k ty ih =>
    rintro a b ⟨_, i, h1, h2⟩
    have huniq : ∀ j : Fin k, s.nat a ib = j.1 → j = i := fun j hj => Fin.ext (by omega)
    constructor
    · rintro (⟨n, al, j, hj, ho⟩ | ⟨el, n, al, ⟨j, hj, ho⟩, h8⟩)
      · rw [huniq j hj] at ho
        obtain ⟨z, hz⟩ := (ih i _ _ h2).1 (Or.inl ⟨n, al, ho⟩)
        exact ⟨z, i, h1, hz⟩
      · rw [huniq j hj] at ho
        obtain ⟨z, hz⟩ := (ih i _ _ h2).1 (Or.inr ⟨el, n, al, ho, h8⟩)
        exact ⟨z, i, h1, hz⟩
    · rintro ⟨z, j, hj, hc⟩
      rw [huniq j hj] at hc
      rcases (ih i _ _ h2).2 ⟨z, hc⟩ with ⟨n, al, ho⟩ | ⟨el, n, al, ho, h⟩
      · exact Or.inl ⟨n, al, i, h1, ho⟩
      · exact Or.inr ⟨el, n, al, ⟨i, h1, ho⟩, h⟩
  | arr k ty ih =>
    intro a b h
    constructor
    · rintro (⟨n, al, i, hi, ho⟩ | ⟨el, n, al, ⟨i, hi, ho⟩, h8⟩)
      · obtain ⟨z, hz⟩ := (ih _ _ (h i hi)).1 (Or.inl ⟨n, al, ho⟩)
        exact ⟨z, i, hi, hz⟩
      · obtain ⟨z, hz⟩ := (ih _ _ (h i hi)).1 (Or.inr ⟨el, n, al, ho, h8⟩)
        exact ⟨z, i, hi, hz⟩
    · rintro ⟨z, i, hi, hc⟩
      rcases (ih _ _ (h i hi)).2 ⟨z, hc⟩ with ⟨n, al, ho⟩ | ⟨el, n, al, ho, h⟩
      · exact Or.inl ⟨n, al, i, hi, ho⟩
      · exact Or.inr ⟨el, n, al, ⟨i, hi, ho⟩, h⟩
  | idx ty ih =>
    intro a b h
    constructor
    · rintro (⟨n, al, ⟨_, hv, _⟩ | ho⟩ | ⟨el, n, al, ⟨hx, _⟩ | ho, h8⟩)
      · exact ⟨b, Or.inl ⟨hv, rfl⟩⟩
      · obtain ⟨z, hz⟩ := (ih _ _ h).1 (Or.inl ⟨n, al, ho⟩)
        exact ⟨z, Or.inr hz⟩
      · cases hx
      · obtain ⟨z, hz⟩ := (ih _ _ h).1 (Or.inr ⟨el, n, al, ho, h8⟩)
        exact ⟨z, Or.inr hz⟩
    · rintro ⟨z, ⟨hv, _⟩ | hc⟩
      · exact Or.inl ⟨_, _, Or.inl ⟨rfl, hv, rfl, rfl⟩⟩
      · rcases (ih _ _ h).2 ⟨z, hc⟩ with ⟨n, al, ho⟩ | ⟨el, n, al, ho, h⟩
        · exact Or.inl ⟨n, al, Or.inr ho⟩
        · exact Or.inr ⟨el, n, al, Or.inr ho, h⟩
  | agg sz al' k off ty ih =>
    intro a b h
    constructor
    · rintro (⟨n, al, i, ho⟩ | ⟨el, n, al, ⟨i, ho⟩, h8⟩)
      · obtain ⟨z, hz⟩ := (ih i _ _ (h i)).1 (Or.inl ⟨n, al, ho⟩)
        exact ⟨z, i, hz⟩
      · obtain ⟨z, hz⟩ := (ih i _ _ (h i)).1 (Or.inr ⟨el, n, al, ho, h8⟩)
        exact ⟨z, i, hz⟩
    · rintro ⟨z, i, hc⟩
      rcases (ih i _ _ (h i)).2 ⟨z, hc⟩ with ⟨n, al, ho⟩ | ⟨el, n, al, ho, h⟩
      · exact Or.inl ⟨n, al, i, ho⟩
      · exact Or.inr ⟨el, n, al, ⟨i, ho⟩, h⟩

/-- Corresponding addresses of objects of a type are corresponding values. -/
theorem Corr.twin {M : Nat} {u : Ty} {v y : Nat} : ∀ (ty : Ty), ty.WF → ∀ a b, Corr s t ty a b v y → HasTy M s ty a u v →
    ∃ u', Le M u' u ∧ Twin s t ty a b u' v y := by
  intro ty
  induction ty with
  | int w => intro _ a b h; cases h
  | blob s al => intro _ a b h; cases h
  | ptr p => intro _ a b h; cases h
  | str => intro _ a b h; cases h
  | vec sw ix ty ih =>
    rintro hw a b ⟨el, el', h1, h2, ⟨h3, h4, h5, h6⟩ | ⟨i, hi, hc⟩⟩ ht
    · have hpos := Ty.pos_of_WF (t := ty) hw.2
      have hlt : v - el < s.nat (a + 8) sw * ty.sizeof := by omega
      have hn : 0 < s.nat (a + 8) sw := Nat.pos_of_ne_zero fun h => by rw [h] at h5; omega
      have hdm := Nat.div_add_mod' (v - el) ty.sizeof
      obtain ⟨u', hs, hle⟩ := ht.2 el _ ty ⟨el, h1, Or.inl ⟨h3, hn, rfl, rfl, rfl, rfl⟩⟩ h4 h5
      refine ⟨u', hle, .vec ((v - el) / ty.sizeof) h1 h2 ((Nat.div_lt_iff_lt_mul hpos.2.1).2 hlt) ?_⟩
      have := Sub.twin (s := s) (t := t) hs (el + (v - el) / ty.sizeof * ty.sizeof) (el' + (v - el) / ty.sizeof * ty.sizeof)
      rwa [show el + (v - el) / ty.sizeof * ty.sizeof + (v - el) % ty.sizeof = v by omega,
        show el' + (v - el) / ty.sizeof * ty.sizeof + (v - el) % ty.sizeof = y by omega] at this
    · obtain ⟨u', hle, h⟩ := ih hw.2 _ _ hc ⟨fun cnt ty' ho => ht.1 cnt ty' ⟨el, h1, Or.inr ⟨i, hi, ho⟩⟩,
        fun el2 cnt ty' ho => ht.2 el2 cnt ty' ⟨el, h1, Or.inr ⟨i, hi, ho⟩⟩⟩
      exact ⟨u', hle, .vec i h1 h2 hi h⟩
  | uptr ty ih =>
    rintro hw a b ⟨el, el', h1, h2, ⟨h3, h4⟩ | hc⟩ ht
    · obtain ⟨u', hs, hle⟩ := ht.1 1 ty ⟨el, h1, Or.inl ⟨rfl, h3, rfl, rfl⟩⟩
      subst h3; subst h4
      exact ⟨u', hle, .uptr h1 h2 (Sub.twin hs _ _)⟩
    · obtain ⟨u', hle, h⟩ := ih hw _ _ hc ⟨fun cnt ty' ho => ht.1 cnt ty' ⟨el, h1, Or.inr ho⟩,
        fun el2 cnt ty' ho => ht.2 el2 cnt ty' ⟨el, h1, Or.inr ho⟩⟩
      exact ⟨u', hle, .uptr h1 h2 h⟩
  | hash ty ih =>
    rintro hw a b ⟨el, el', c, h1, h2, h3, i, hi, hf, hc⟩ ht
    obtain ⟨u', hle, h⟩ := ih hw _ _ hc ⟨fun cnt ty' ho => ht.1 cnt ty' ⟨el, c, h1, h3, i, hi, hf, ho⟩,
      fun el2 cnt ty' ho => ht.2 el2 cnt ty' ⟨el, c, h1, h3, i, hi, hf, ho⟩⟩
    exact ⟨u', hle, .hash i h1 h2 h3 hi hf h⟩
  | opt ty ih =>
    rintro hw a b ⟨h1, hc⟩ ht
    obtain ⟨u', hle, h⟩ := ih hw _ _ hc ⟨fun cnt ty' ho => ht.1 cnt ty' ⟨h1, ho⟩, fun el2 cnt ty' ho => ht.2 el2 cnt ty' ⟨h1, ho⟩⟩
    exact ⟨u', hle, .opt h1 h⟩
  | var ib so sz al' k ty ih =>
    rintro hw a b ⟨i, h1, hc⟩ ht
    obtain ⟨w1, w2, w3, w4, w5, w6, w7, w8, w9⟩ := hw
    obtain ⟨u', hle, h⟩ := ih i (w9 i).1 _ _ hc ⟨fun cnt ty' ho => ht.1 cnt ty' ⟨i, h1, ho⟩, fun el2 cnt ty' ho => ht.2 el2 cnt ty' ⟨i, h1, ho⟩⟩
    exact ⟨u', hle, .var i h1 h⟩
  | arr k ty ih =>
    rintro hw a b ⟨i, hi, hc⟩ ht
    obtain ⟨u', hle, h⟩ := ih hw.2 _ _ hc ⟨fun cnt ty' ho => ht.1 cnt ty' ⟨i, hi, ho⟩, fun el2 cnt ty' ho => ht.2 el2 cnt ty' ⟨i, hi, ho⟩⟩
    exact ⟨u', hle, .arr i hi h⟩
  | idx ty ih =>
    rintro hw a b (⟨h3, h4⟩ | hc) ht
    · obtain ⟨u', hs, hle⟩ := ht.1 1 ty (Or.inl ⟨rfl, h3, rfl, rfl⟩)
      subst h3; subst h4
      exact ⟨u', hle, .idx (Sub.twin hs _ _)⟩
    · obtain ⟨u', hle, h⟩ := ih hw _ _ hc ⟨fun cnt ty' ho => ht.1 cnt ty' (Or.inr ho), fun el2 cnt ty' ho => ht.2 el2 cnt ty' (Or.inr ho)⟩
      exact ⟨u', hle, .idx h⟩
  | agg sz al' k off ty ih =>
    rintro hw a b ⟨i, hc⟩ ht
    obtain ⟨u', hle, h⟩ := ih i (hw.2.2.2.1 i).1 _ _ hc ⟨fun cnt ty' ho => ht.1 cnt ty' ⟨i, ho⟩, fun el2 cnt ty' ho => ht.2 el2 cnt ty' ⟨i, ho⟩⟩
    exact ⟨u', hle, .agg i h⟩

/-! ## Loading without conversion -/

theorem ok_of_bind {α β : Type} {r : Res α} {f : α → Res β} {v : β} (h : (r >>= f) = .ok v) : ∃ x, r = .ok x ∧ f x = .ok v := by
  cases r with
  | ok x => exact ⟨x, rfl, h⟩
  | error x => rw [error_bind] at h; cases h

theorem forFrom_id {σ : Type} {f : Nat → σ → Res σ} (hf : ∀ i s s', f i s = .ok s' → s' = s) : ∀ (k i : Nat) (s s' : σ),
    forFrom f i k s = .ok s' → s' = s
  | 0, i, s, s', h => by injection h with h; exact h.symm
  | k + 1, i, s, s', h => by
    rw [forFrom_succ] at h
    obtain ⟨x, h1, h2⟩ := ok_of_bind h
    rw [forFrom_id hf k (i + 1) x s' h2, hf i s x h1]

variable {d : DEnv}

theorem convInt_id (hc : d.conv = false) {a w : Nat} {m m' : Mem} (h : convInt d a w m = .ok m') : m' = m := by
  unfold convInt at h
  rw [hc] at h
  injection h with h
  exact h.symm

theorem convPtr_id (hc : d.conv = false) (hr : d.raw = false) {a : Nat} {m m' : Mem} (h : convPtr d a m = .ok m') : m' = m := by
  unfold convPtr at h
  rw [hr] at h
  exact convInt_id hc h

theorem deserPtr_id (hc : d.conv = false) (hr : d.raw = false) {size al a : Nat} {m m' : Mem} (h : deserPtr d size al a m = .ok m') :
    m' = m := by
  unfold deserPtr at h
  obtain ⟨_, _, h⟩ := ok_of_bind h
  obtain ⟨m1, h1, h⟩ := ok_of_bind h
  rw [convPtr_id hc hr h1] at h
  split at h
  · injection h with h; exact h.symm
  · obtain ⟨_, _, h⟩ := ok_of_bind h
    injection h with h; exact h.symm

theorem hashIter_id {body : Nat → Mem → Res Mem} {c cap : Nat} (hb : ∀ i m m', body i m = .ok m' → m' = m) : ∀ (f i : Nat) (m m' : Mem),
    hashIter d (fun m => m) body c cap f i m = .ok m' → m' = m
  | 0, i, m, m', h => by cases h
  | f + 1, i, m, m', h => by
    unfold hashIter at h
    split at h
    · injection h with h; exact h.symm
    · obtain ⟨m1, h1, h⟩ := ok_of_bind h
      obtain ⟨j, _, h⟩ := ok_of_bind h
      rw [hashIter_id hb f j m1 m' h, hb i m m1 h1]

theorem hashFor_id {body : Nat → Mem → Res Mem} {size a : Nat} (hb : ∀ i m m', body i m = .ok m' → m' = m) {m m' : Mem}
    (h : hashFor d (fun m => m) body size a m = .ok m') : m' = m := by
  unfold hashFor at h
  obtain ⟨_, _, h⟩ := ok_of_bind h
  obtain ⟨_, _, h⟩ := ok_of_bind h
  obtain ⟨_, _, h⟩ := ok_of_bind h
  obtain ⟨_, _, h⟩ := ok_of_bind h
  obtain ⟨_, _, h⟩ := ok_of_bind h
  refine hashIter_id (fun i m m' h => ?_) _ _ _ _ h
  obtain ⟨_, _, h⟩ := ok_of_bind h
  exact hb _ _ _ h

/-- Without byte order conversion and with offset pointers nothing is written. -/
theorem deser_id (hc : d.conv = false) (hr : d.raw = false) : ∀ (ty : Ty) (a : Nat) (m m' : Mem), deser d ty a m = .ok m' → m' = m := by
  intro ty
  induction ty with
  | int w =>
    intro a m m' h
    unfold deser at h
    obtain ⟨_, _, h⟩ := ok_of_bind h
    exact convInt_id hc h
  | blob s al =>
    intro a m m' h
    unfold deser at h
    obtain ⟨_, _, h⟩ := ok_of_bind h
    injection h with h; exact h.symm
  | ptr p => exact fun a m m' h => deserPtr_id hc hr h
  | vec sw ix ty ih =>
    intro a m m' h
    unfold deser at h
    obtain ⟨_, _, h⟩ := ok_of_bind h
    obtain ⟨m1, h1, h⟩ := ok_of_bind h
    obtain ⟨m2, h2, h⟩ := ok_of_bind h
    obtain ⟨m3, h3, h⟩ := ok_of_bind h
    rw [convInt_id hc h3, convInt_id hc h2, deserPtr_id hc hr h1] at h
    obtain ⟨_, _, h⟩ := ok_of_bind h
    obtain ⟨x, _, h⟩ := ok_of_bind h
    obtain ⟨n, _, h⟩ := ok_of_bind h
    split at h
    · injection h with h; exact h.symm
    · obtain ⟨el, _, h⟩ := ok_of_bind h
      exact forFrom_id (fun i s s' => ih _ _ _) _ _ _ _ h
  | str =>
    intro a m m' h
    unfold deser at h
    obtain ⟨_, _, h⟩ := ok_of_bind h
    obtain ⟨m1, h1, h⟩ := ok_of_bind h
    have : m1 = m := by
      unfold convStr at h1
      obtain ⟨b, _, h1⟩ := ok_of_bind h1
      split at h1
      · obtain ⟨m2, h2, h1⟩ := ok_of_bind h1
        rw [convInt_id hc h1, deserPtr_id hc hr h2]
      · injection h1 with h1; exact h1.symm
    rw [this] at h
    obtain ⟨_, _, h⟩ := ok_of_bind h
    injection h with h; exact h.symm
  | uptr ty ih =>
    intro a m m' h
    unfold deser at h
    obtain ⟨_, _, h⟩ := ok_of_bind h
    obtain ⟨m1, h1, h⟩ := ok_of_bind h
    rw [deserPtr_id hc hr h1] at h
    obtain ⟨_, _, h⟩ := ok_of_bind h
    obtain ⟨x, _, h⟩ := ok_of_bind h
    split at h
    · injection h with h; exact h.symm
    · obtain ⟨el, _, h⟩ := ok_of_bind h
      exact ih _ _ _ h
  | hash ty ih =>
    intro a m m' h
    unfold deser at h
    obtain ⟨_, _, h⟩ := ok_of_bind h
    obtain ⟨m1, h1, h⟩ := ok_of_bind h
    obtain ⟨m2, h2, h⟩ := ok_of_bind h
    obtain ⟨m3, h3, h⟩ := ok_of_bind h
    obtain ⟨m4, h4, h⟩ := ok_of_bind h
    obtain ⟨m5, h5, h⟩ := ok_of_bind h
    rw [convInt_id hc h5, convInt_id hc h4, convInt_id hc h3, deserPtr_id hc hr h2, deserPtr_id hc hr h1] at h
    obtain ⟨_, _, h⟩ := ok_of_bind h
    exact hashFor_id (fun _ _ _ => ih _ _ _) h
  | opt ty ih =>
    intro a m m' h
    unfold deser at h
    obtain ⟨_, _, h⟩ := ok_of_bind h
    obtain ⟨_, _, h⟩ := ok_of_bind h
    obtain ⟨b, _, h⟩ := ok_of_bind h
    split at h
    · injection h with h; exact h.symm
    · exact ih _ _ _ h
  | var ib so s al n ty ih =>
    intro a m m' h
    unfold deser at h
    obtain ⟨_, _, h⟩ := ok_of_bind h
    obtain ⟨i, _, h⟩ := ok_of_bind h
    obtain ⟨_, _, h⟩ := ok_of_bind h
    split at h
    · exact ih _ _ _ _ h
    · cases h
  | arr n ty ih =>
    intro a m m' h
    unfold deser at h
    obtain ⟨_, _, h⟩ := ok_of_bind h
    exact forFrom_id (fun i s s' => ih _ _ _) _ _ _ _ h
  | idx ty ih =>
    intro a m m' h
    unfold deser at h
    obtain ⟨_, _, h⟩ := ok_of_bind h
    exact ih _ _ _ h
  | agg s al n off ty ih =>
    intro a m m' h
    unfold deser at h
    obtain ⟨_, _, h⟩ := ok_of_bind h
    refine forFrom_id (fun i s s' h => ?_) _ _ _ _ h
    split at h
    · exact ih _ _ _ _ h
    · injection h with h; exact h.symm

end Cista.Ser

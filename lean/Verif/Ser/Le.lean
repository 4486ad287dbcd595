import Verif.Ser.Round
import Verif.Ser.Deep

/-!
# Cut-off types

`Le M t u`: the type `t` is the type `u`, except that some types inside have been replaced by types of the same size and alignment
without values (a variant without alternatives).  A value of `t` is a value of `u`, with the same layout; code for `t` behaves as
the code for `u` as long as it does not meet one of the replaced types, where it throws.  Used for recursive types (`Rec.lean`),
whose unrollings are related by `Le`.  `M` is an address all types inside are aligned for.
-/
set_option linter.unusedSimpArgs false
set_option linter.unusedSectionVars false

namespace Cista.Ser

/-- A type without values. -/
def Ty.empty (s al : Nat) : Ty := .var 1 1 s al 0 Fin.elim0

inductive Le (M : Nat) : Ty → Ty → Prop
  | refl (t : Ty) : Le M t t
  | empty {u : Ty} : u.WF → u.Al M → Le M (.empty u.sizeof u.alignof) u
  | vec {sw : Nat} {ix : Bool} {t u : Ty} : Le M t u → Le M (.vec sw ix t) (.vec sw ix u)
  | uptr {t u : Ty} : Le M t u → Le M (.uptr t) (.uptr u)
  | hash {t u : Ty} : Le M t u → Le M (.hash t) (.hash u)
  | opt {t u : Ty} : Le M t u → Le M (.opt t) (.opt u)
  | var {ib so s al n : Nat} {t u : Fin n → Ty} : (∀ i, Le M (t i) (u i)) → Le M (.var ib so s al n t) (.var ib so s al n u)
  | arr {n : Nat} {t u : Ty} : Le M t u → Le M (.arr n t) (.arr n u)
  | idx {t u : Ty} : Le M t u → Le M (.idx t) (.idx u)
  | agg {s al n : Nat} {off : Fin n → Nat} {t u : Fin n → Ty} : (∀ i, Le M (t i) (u i)) → Le M (.agg s al n off t) (.agg s al n off u)

variable {M : Nat} {t u : Ty}

theorem Le.geo (h : Le M t u) : t.sizeof = u.sizeof ∧ t.alignof = u.alignof := by
  induction h with
  | refl t => exact ⟨rfl, rfl⟩
  | empty _ _ => exact ⟨rfl, rfl⟩
  | vec _ ih => exact ⟨rfl, rfl⟩
  | uptr _ ih => exact ⟨rfl, rfl⟩
  | hash _ ih => exact ⟨rfl, rfl⟩
  | opt _ ih => simp only [Ty.sizeof, Ty.alignof]; rw [ih.1, ih.2]; exact ⟨rfl, rfl⟩
  | var _ ih => exact ⟨rfl, rfl⟩
  | arr _ ih => simp only [Ty.sizeof, Ty.alignof]; rw [ih.1, ih.2]; exact ⟨rfl, rfl⟩
  | idx _ ih => simp only [Ty.sizeof, Ty.alignof]; rw [ih.1, ih.2]; exact ⟨rfl, rfl⟩
  | agg _ ih => exact ⟨rfl, rfl⟩

theorem Le.wf (h : Le M t u) : t.WF → u.WF := by
  induction h with
  | refl t => exact id
  | empty hw _ => exact fun _ => hw
  | vec _ ih => exact fun h => ⟨h.1, ih h.2⟩
  | uptr _ ih => exact ih
  | hash _ ih => exact ih
  | opt _ ih => exact ih
  | var h ih =>
    rintro ⟨w1, w2, w3, w4, w5, w6, w7, w8, w9⟩
    refine ⟨w1, w2, w3, w4, w5, w6, w7, w8, fun i => ?_⟩
    obtain ⟨v1, v2, v3, v4⟩ := w9 i
    rw [← (h i).geo.1, ← (h i).geo.2]
    exact ⟨ih i v1, v2, v3, v4⟩
  | arr _ ih => exact fun h => ⟨h.1, ih h.2⟩
  | idx _ ih => exact ih
  | agg h ih =>
    rintro ⟨w1, w2, w3, w4, w5⟩
    refine ⟨w1, w2, w3, fun i => ?_, fun i j hij => ?_⟩
    · obtain ⟨v1, v2, v3, v4⟩ := w4 i
      rw [← (h i).geo.1, ← (h i).geo.2]
      exact ⟨ih i v1, v2, v3, v4⟩
    · rw [← (h i).geo.1]
      exact w5 i j hij

theorem Le.al (h : Le M t u) : t.Al M → u.Al M := by
  induction h with
  | refl t => exact id
  | empty _ ha => exact fun _ => ha
  | vec _ ih => exact fun h => ⟨h.1, ih h.2⟩
  | uptr _ ih => exact fun h => ⟨h.1, ih h.2⟩
  | hash _ ih => exact fun h => ⟨h.1, ih h.2⟩
  | opt _ ih => exact ih
  | var _ ih => exact fun h => ⟨h.1, fun i => ih i (h.2 i)⟩
  | arr _ ih => exact ih
  | idx _ ih => exact ih
  | agg _ ih => exact fun h => ⟨h.1, fun i => ih i (h.2 i)⟩

theorem ChainFrom.mono {R R' : Nat → Rel} (hR : ∀ j L L' lv pl, R j L L' lv pl → R' j L L' lv pl) : ∀ (k i L L' : Nat)
    (lv : List (Nat × Leaf)) (pl : List Place), ChainFrom R i k L L' lv pl → ChainFrom R' i k L L' lv pl
  | 0, _, _, _, _, _, h => h
  | k + 1, i, L, L', lv, pl, h => by
    obtain ⟨M, lv1, lv2, pl1, pl2, h1, h2, h3, h4⟩ := h
    exact ⟨M, lv1, lv2, pl1, pl2, hR _ _ _ _ _ h1, ChainFrom.mono hR k (i + 1) M L' lv2 pl2 h2, h3, h4⟩

/-- The layout of a value does not change. -/
theorem Le.lay {e : SEnv} (h : Le M t u) : ∀ a p L L' lv pl, Lay e t a p L L' lv pl → Lay e u a p L L' lv pl := by
  induction h with
  | refl t => exact fun _ _ _ _ _ _ h => h
  | empty _ _ => rintro a p L L' lv pl ⟨i, _⟩; exact i.elim0
  | vec h ih =>
    rintro a p L L' lv pl (h0 | ⟨hn, el, s, lv', pl', hel, hs, hals, hc, hlv, hpl⟩)
    · exact Or.inl h0
    · refine Or.inr ⟨hn, el, s, lv', pl', hel, hs, by rw [← h.geo.2]; exact hals, ?_, hlv, by rw [← h.geo.1, ← h.geo.2]; exact hpl⟩
      rw [← h.geo.1]
      exact hc.mono (fun j => ih _ _) _ _ _ _ _ _
  | uptr h ih =>
    rintro a p L L' lv pl (h0 | ⟨el, s, lv', pl', hel, hs, hals, hc, hlv, hpl⟩)
    · exact Or.inl h0
    · refine Or.inr ⟨el, s, lv', pl', hel, hs, by rw [← h.geo.2]; exact hals, ?_, hlv, by rw [← h.geo.1, ← h.geo.2]; exact hpl⟩
      rw [← h.geo.1]
      exact ih _ _ _ _ _ _ hc
  | hash h ih =>
    rintro a p L L' lv pl (h0 | h1)
    · exact Or.inl h0
    · simp only [h.geo.1, h.geo.2] at h1
      obtain ⟨el, s, lv', hel, hct, hn, htab, hs, hals, hc, hlv⟩ := h1
      refine Or.inr ⟨el, s, lv', hel, hct, hn, htab, hs, hals, hc.mono (fun j L L' lv pl hj => ?_) _ _ _ _ _ _, hlv⟩
      exact ⟨fun hf => ih _ _ _ _ _ _ (hj.1 hf), hj.2⟩
  | opt h ih =>
    rintro a p L L' lv pl (h0 | ⟨h1, lv', hc, hlv⟩)
    · exact Or.inl h0
    · refine Or.inr ⟨h1, lv', ?_, hlv⟩
      rw [← h.geo.2]
      exact ih _ _ _ _ _ _ hc
  | var h ih =>
    rintro a p L L' lv pl ⟨i, lv', hi, hc, hlv⟩
    exact ⟨i, lv', hi, ih i _ _ _ _ _ _ hc, hlv⟩
  | arr h ih =>
    intro a p L L' lv pl hc
    unfold Lay at hc ⊢
    rw [← h.geo.1]
    exact hc.mono (fun j => ih _ _) _ _ _ _ _ _
  | idx h ih =>
    rintro a p L L' lv pl ⟨pl', hc, hpl⟩
    exact ⟨pl', ih _ _ _ _ _ _ hc, by rw [← h.geo.1, ← h.geo.2]; exact hpl⟩
  | agg h ih =>
    intro a p L L' lv pl hc
    exact ChainFrom.mono (fun j L L' lv pl ⟨hj, hl⟩ => ⟨hj, ih _ _ _ _ _ _ _ hl⟩) _ _ _ _ _ _ hc

/-- Equal values of the cut-off type are equal values. -/
theorem Le.same {s s' : Side} {R : Nat → Option Nat → Prop} (h : Le M t u) : ∀ a b, Same s s' R t a b → Same s s' R u a b := by
  induction h with
  | refl t => exact fun _ _ h => h
  | empty _ _ => rintro a b ⟨_, i, _⟩; exact i.elim0
  | vec h ih =>
    rintro a b ⟨h1, h2, h3, h4 | ⟨x, y, h4, h5, h6⟩⟩
    · exact ⟨h1, h2, h3, Or.inl h4⟩
    · refine ⟨h1, h2, h3, Or.inr ⟨x, y, h4, h5, fun i hi => ?_⟩⟩
      rw [← h.geo.1]
      exact ih _ _ (h6 i hi)
  | uptr h ih =>
    rintro a b ⟨h1, h2 | ⟨x, y, h4, h5, h6⟩⟩
    · exact ⟨h1, Or.inl h2⟩
    · exact ⟨h1, Or.inr ⟨x, y, h4, h5, ih _ _ h6⟩⟩
  | hash h ih =>
    rintro a b ⟨h1, h2, h3, h4, h5 | h5⟩
    · exact ⟨h1, h2, h3, h4, Or.inl h5⟩
    · simp only [h.geo.1] at h5
      obtain ⟨x, y, k1, k2, k3, k4, k5, k6⟩ := h5
      exact ⟨h1, h2, h3, h4, Or.inr ⟨x, y, k1, k2, k3, k4, k5, fun i hi hf => ih _ _ (k6 i hi hf)⟩⟩
  | opt h ih =>
    rintro a b ⟨h1, h2 | ⟨h2, h3⟩⟩
    · exact ⟨h1, Or.inl h2⟩
    · refine ⟨h1, Or.inr ⟨h2, ?_⟩⟩
      rw [← h.geo.2]
      exact ih _ _ h3
  | var h ih =>
    rintro a b ⟨h1, i, h2, h3⟩
    exact ⟨h1, i, h2, ih i _ _ h3⟩
  | arr h ih =>
    intro a b h1 i hi
    rw [← h.geo.1]
    exact ih _ _ (h1 i hi)
  | idx h ih => exact ih
  | agg h ih => exact fun a b h1 i => ih i _ _ (h1 i)

theorem Le.trans {v : Ty} (h : Le M t u) : Le M u v → Le M t v := by
  induction h generalizing v with
  | refl t => exact id
  | @empty u hw ha =>
    intro h
    rw [h.geo.1, h.geo.2]
    exact .empty (h.wf hw) (h.al ha)
  | vec h ih =>
    intro h2
    cases h2 with
    | refl => exact .vec h
    | vec h2 => exact .vec (ih h2)
  | uptr h ih =>
    intro h2
    cases h2 with
    | refl => exact .uptr h
    | uptr h2 => exact .uptr (ih h2)
  | hash h ih =>
    intro h2
    cases h2 with
    | refl => exact .hash h
    | hash h2 => exact .hash (ih h2)
  | opt h ih =>
    intro h2
    cases h2 with
    | refl => exact .opt h
    | opt h2 => exact .opt (ih h2)
  | @var ib so s al n t u h ih =>
    intro h2
    cases h2 with
    | refl => exact .var h
    | empty h3 h4 =>
      have : t = Fin.elim0 := funext fun i => i.elim0
      rw [this]
      exact .empty h3 h4
    | var h2 => exact .var fun i => ih i (h2 i)
  | arr h ih =>
    intro h2
    cases h2 with
    | refl => exact .arr h
    | arr h2 => exact .arr (ih h2)
  | idx h ih =>
    intro h2
    cases h2 with
    | refl => exact .idx h
    | idx h2 => exact .idx (ih h2)
  | agg h ih =>
    intro h2
    cases h2 with
    | refl => exact .agg h
    | agg h2 => exact .agg fun i => ih i (h2 i)

end Cista.Ser

import Verif.Vector.Model
import Verif.Arith.Props

set_option linter.unusedSimpArgs false

namespace Cista.Vector

open Cista.Mem

variable {α : Type}

/-- Contents of `n` constructed elements. -/
abbrev vals (l : List α) : List (Slot α) := l.map .val

/-- Vector `v` represents the list `l` in heap `h`: either it is the empty null vector, or its block
starts with exactly the elements of `l`; in strict mode the remaining capacity holds no objects. -/
inductive Rep (strict : Bool) (h : Heap α) (v : Vec) (l : List α) : Prop where
  | null (hv : v = Vec.empty) (hl : l = [])
  | blk (b : Nat) (rest : List (Slot α)) (hp : v.ptr = some b) (hb : b < h.next)
      (hs : h.blocks b = some (vals l ++ rest)) (hu : v.used = l.length)
      (ha : v.alloc = l.length + rest.length)
      (hr : strict = true → ∀ s ∈ rest, s = .raw)

/-- Unused block ids are unallocated. -/
def Fresh (h : Heap α) : Prop := ∀ b, h.next ≤ b → h.blocks b = none

/-- The vector's block is allocated. -/
def Good (h : Heap α) (v : Vec) : Prop := ∀ b, v.ptr = some b → b < h.next ∧ h.blocks b ≠ none

/-- What an operation on the vector `v` may do to the heap: it touches only the vector's own block
and fresh blocks, releases its old block exactly if it owned it and does not use it any more, and
owns every fresh block that is still allocated. -/
structure Frame (h : Heap α) (v : Vec) (h' : Heap α) (v' : Vec) : Prop where
  good0 : Good h v
  good : Good h' v'
  next_le : h.next ≤ h'.next
  fresh : Fresh h'
  other : ∀ b, b < h.next → v.ptr ≠ some b → h'.blocks b = h.blocks b
  ptr : (v'.ptr = v.ptr ∧ v'.self = v.self) ∨ v'.ptr = none ∨
    ∃ b, h.next ≤ b ∧ v'.ptr = some b ∧ v'.self = true
  new : ∀ b, h.next ≤ b → h'.blocks b ≠ none → v'.ptr = some b
  old : ∀ b, v.ptr = some b → v'.ptr ≠ some b → (h'.blocks b = none ↔ v.self = true)

theorem Frame.refl {h : Heap α} {v : Vec} (hf : Fresh h) (g : Good h v) : Frame h v h v where
  good0 := g
  good := g
  next_le := Nat.le_refl _
  fresh := hf
  other := fun _ _ _ => rfl
  ptr := Or.inl ⟨rfl, rfl⟩
  new := fun b hb hn => absurd (hf b hb) hn
  old := fun b hp hn => absurd hp hn

theorem Frame.trans {h h1 h2 : Heap α} {v v1 v2 : Vec} (f : Frame h v h1 v1) (g : Frame h1 v1 h2 v2) :
    Frame h v h2 v2 where
  good0 := f.good0
  good := g.good
  next_le := Nat.le_trans f.next_le g.next_le
  fresh := g.fresh
  other := by
    intro b hb hp
    have h1p : v1.ptr ≠ some b := by
      rcases f.ptr with ⟨e, _⟩ | e | ⟨c, hc, e, _⟩
      · rw [e]; exact hp
      · rw [e]; simp
      · rw [e]; simp; omega
    rw [g.other b (Nat.lt_of_lt_of_le hb f.next_le) h1p, f.other b hb hp]
  ptr := by
    rcases g.ptr with ⟨e, s⟩ | e | ⟨c, hc, e, s⟩
    · rw [e, s]
      rcases f.ptr with h | h | ⟨c, hc, e2, s2⟩
      · exact Or.inl h
      · exact Or.inr (Or.inl h)
      · exact Or.inr (Or.inr ⟨c, hc, e2, s2⟩)
    · exact Or.inr (Or.inl e)
    · exact Or.inr (Or.inr ⟨c, Nat.le_trans f.next_le hc, e, s⟩)
  new := by
    intro b hb hn
    by_cases hb1 : h1.next ≤ b
    · exact g.new b hb1 hn
    · by_cases hp : v1.ptr = some b
      · have hself : v1.self = true := by
          rcases f.ptr with ⟨e, s⟩ | e | ⟨c, _, e, s⟩
          · rw [e] at hp
            have := (f.good0 b hp).1
            omega
          · rw [e] at hp; cases hp
          · exact s
        by_cases h2p : v2.ptr = some b
        · exact h2p
        · exact absurd ((g.old b hp h2p).2 hself) hn
      · rw [g.other b (by omega) hp] at hn
        exact absurd (f.new b hb hn) hp
  old := by
    intro b hp hn
    have hb := (f.good0 b hp).1
    by_cases h1p : v1.ptr = some b
    · have := g.old b h1p hn
      have hs : v1.self = v.self := by
        rcases f.ptr with ⟨e, s⟩ | e | ⟨c, hc, e, s⟩
        · exact s
        · rw [e] at h1p; cases h1p
        · rw [e] at h1p; cases h1p; omega
      rw [← hs]; exact this
    · rw [g.other b (Nat.lt_of_lt_of_le hb f.next_le) h1p]
      exact f.old b hp h1p

/-- Rewriting the vector's own block in place. -/
theorem Frame.inPlace {h : Heap α} {v : Vec} {b : Nat} (hf : Fresh h) (g : Good h v)
    (hp : v.ptr = some b) (ss : List (Slot α)) {v' : Vec} (hp' : v'.ptr = v.ptr)
    (hs' : v'.self = v.self) : Frame h v (h.setBlk b (some ss)) v' where
  good0 := g
  good := by
    intro c hc
    rw [hp', hp] at hc; cases hc
    exact ⟨(g b hp).1, by simp⟩
  next_le := Nat.le_refl _
  fresh := by
    intro c hc
    have := (g b hp).1
    simp only [setBlk_next] at hc
    rw [setBlk_blocks, if_neg (by omega)]
    exact hf c hc
  other := by
    intro c _ hc
    rw [setBlk_blocks, if_neg]
    intro e; rw [e] at hc; exact hc hp
  ptr := Or.inl ⟨hp', hs'⟩
  new := by
    intro c hc hn
    have := (g b hp).1
    rw [setBlk_blocks, if_neg (by omega)] at hn
    exact absurd (hf c hc) hn
  old := by
    intro c hc hn
    rw [hp'] at hn; exact absurd hc hn

theorem Rep.good {strict : Bool} {h : Heap α} {v : Vec} {l : List α} (r : Rep strict h v l) :
    Good h v := by
  intro b hb
  cases r with
  | null hv hl => rw [hv] at hb; cases hb
  | blk b' rest hp hlt hs hu ha hr =>
    rw [hp] at hb; cases hb
    exact ⟨hlt, by rw [hs]; simp⟩

theorem Rep.used {strict : Bool} {h : Heap α} {v : Vec} {l : List α} (r : Rep strict h v l) :
    v.used = l.length := by
  cases r with
  | null hv hl => rw [hv, hl]; rfl
  | blk b' rest hp hlt hs hu ha hr => exact hu

/-- A vector with spare capacity (or elements) has a block. -/
theorem Rep.toBlk {strict : Bool} {h : Heap α} {v : Vec} {l : List α} (r : Rep strict h v l)
    (ha : 0 < v.alloc ∨ 0 < v.used) : ∃ b rest, v.ptr = some b ∧ b < h.next ∧
      h.blocks b = some (vals l ++ rest) ∧ v.used = l.length ∧ v.alloc = l.length + rest.length ∧
      (strict = true → ∀ s ∈ rest, s = .raw) := by
  cases r with
  | null hv hl => rw [hv] at ha; simp [Vec.empty] at ha
  | blk b rest hp hlt hs hu ha hr => exact ⟨b, rest, hp, hlt, hs, hu, ha, hr⟩

/-! ## Loops -/

theorem moveLoop_ok {strict : Bool} {src dst : Nat} (hne : src ≠ dst) {h : Heap α} {l : List α}
    {rest tail : List (Slot α)} (n : Nat) (hn : n ≤ l.length) (m : Nat) (hm : l.length ≤ m)
    (hs : h.blocks src = some (vals l ++ rest))
    (hd : h.blocks dst = some (List.replicate m .raw ++ tail)) :
    moveLoop strict src dst n h = .ok
      ((h.setBlk src (some (List.replicate n .moved ++ (vals (l.drop n) ++ rest)))).setBlk dst
        (some (vals (l.take n) ++ (List.replicate (m - n) .raw ++ tail)))) := by
  induction n with
  | zero =>
    simp only [moveLoop, List.replicate_zero, List.nil_append, List.drop_zero, List.take_zero,
      List.map_nil, Nat.sub_zero]
    rw [setBlk_self _ hs, setBlk_self _ hd]
  | succ n ih =>
    have hlt : n < l.length := by omega
    simp only [moveLoop, ih (by omega), bind, Except.bind]
    have hdrop : l.drop n = l[n] :: l.drop (n + 1) := (List.drop_eq_getElem_cons hlt)
    have hrep : List.replicate (m - n) (Slot.raw (α := α)) = .raw :: List.replicate (m - (n + 1)) .raw := by
      rw [show m - n = (m - (n + 1)) + 1 by omega, List.replicate_succ]
    rw [moveOut_at (p := List.replicate n .moved) (a := l[n]) (q := vals (l.drop (n + 1)) ++ rest)
      (by rw [setBlk_comm _ hne, setBlk_blocks, if_pos rfl, hdrop]; rfl) (by simp)]
    simp only []
    rw [construct_at (p := vals (l.take n)) (s := .raw)
      (q := List.replicate (m - (n + 1)) .raw ++ tail)
      (by rw [setBlk_blocks, if_neg (Ne.symm hne), setBlk_blocks, if_pos rfl, hrep]; rfl)
      (by simp; omega) (fun _ => rfl)]
    congr 1
    rw [setBlk_comm _ hne, setBlk_setBlk, setBlk_comm _ (Ne.symm hne), setBlk_setBlk]
    congr 2
    · rw [List.replicate_succ']; simp
    · rw [List.take_succ_eq_append_getElem hlt]
      simp only [List.map_append, List.map_cons, List.map_nil, List.append_assoc, List.cons_append,
        List.nil_append]

theorem destroyLoop_ok {b lo : Nat} {h : Heap α} {p q : List (Slot α)} (mid : List (Slot α))
    (hlo : lo = p.length) (hlive : ∀ s ∈ mid, s.isRaw = false) (hs : h.blocks b = some (p ++ (mid ++ q)))
    (n : Nat) (hn : n ≤ mid.length) :
    destroyLoop b lo n h = .ok
      (h.setBlk b (some (p ++ (List.replicate n .raw ++ (mid.drop n ++ q))))) := by
  induction n with
  | zero =>
    simp only [destroyLoop, List.replicate_zero, List.nil_append, List.drop_zero]
    rw [setBlk_self _ hs]
  | succ n ih =>
    have hlt : n < mid.length := by omega
    simp only [destroyLoop, ih (by omega), bind, Except.bind]
    have hdrop : mid.drop n = mid[n] :: mid.drop (n + 1) := (List.drop_eq_getElem_cons hlt)
    rw [destroy_at (p := p ++ List.replicate n .raw) (s := mid[n]) (q := mid.drop (n + 1) ++ q)
      (by rw [setBlk_blocks, if_pos rfl, hdrop]; simp only [List.append_assoc, List.cons_append])
      (by simp [hlo])
      (hlive _ (List.getElem_mem _))]
    rw [setBlk_setBlk, List.replicate_succ']
    simp

theorem constructAll_ok {strict : Bool} {b : Nat} (xs : List α) {i : Nat} {h : Heap α}
    {p : List (Slot α)} {mid q : List (Slot α)} (hi : i = p.length) (hm : mid.length = xs.length)
    (hraw : strict = true → ∀ s ∈ mid, s = .raw)
    (hs : h.blocks b = some (p ++ (mid ++ q))) :
    constructAll strict b i xs h = .ok (h.setBlk b (some (p ++ (vals xs ++ q)))) := by
  induction xs generalizing i h p mid with
  | nil =>
    have : mid = [] := List.length_eq_zero_iff.1 (by simpa using hm)
    subst this
    simp only [constructAll, List.map_nil]
    rw [setBlk_self _ hs]
  | cons a xs ih =>
    cases mid with
    | nil => simp at hm
    | cons s mid =>
      simp only [constructAll]
      rw [construct_at (p := p) (s := s) (q := mid ++ q) (by rw [hs]; rfl) hi
        (fun e => hraw e s List.mem_cons_self)]
      simp only [bind, Except.bind]
      rw [ih (p := p ++ [.val a]) (mid := mid) (by simp [hi]) (by simpa using hm)
        (fun e t ht => hraw e t (List.mem_cons_of_mem _ ht))
        (by rw [setBlk_blocks, if_pos rfl]; simp)]
      rw [setBlk_setBlk]
      simp

/-! ## reserve -/

/-- Size limits within which `size_type` arithmetic does not wrap. -/
structure Lim (W n : Nat) : Prop where
  std : Arith.StdWidth W
  le : n ≤ 2 ^ (W - 1)

theorem Lim.pow (W n : Nat) (h : Lim W n) : n < 2 ^ W := by
  have : (2:Nat) ^ (W - 1) < 2 ^ W :=
    Nat.pow_lt_pow_right (by omega) (by rcases h.std with h | h | h | h <;> omega)
  exact Nat.lt_of_le_of_lt h.le this

theorem Lim.mod {W n : Nat} (h : Lim W n) : n % 2 ^ W = n := Nat.mod_eq_of_lt (Lim.pow _ _ h)

theorem nextPow2_ge {W n : Nat} (hl : Lim W n) (hn : 0 < n) :
    n ≤ (Arith.nextPow2 (BitVec.ofNat W n)).toNat := by
  have h2 : (BitVec.ofNat W n).toNat = n := by rw [BitVec.toNat_ofNat]; exact hl.mod
  obtain ⟨k, hk, hle, _⟩ := Arith.C01_next_power_of_two_least hl.std (BitVec.ofNat W n)
    (by intro e; rw [e] at h2; simp at h2; omega) (by rw [h2]; exact hl.le)
  rw [hk]; omega

theorem reserve_ok {W : Nat} {strict : Bool} {h : Heap α} {v : Vec} {l : List α}
    (r : Rep strict h v l) (hf : Fresh h) {n : Nat} (hl : Lim W n) :
    ∃ h' v', reserve W strict h v n = .ok (h', v') ∧ Rep strict h' v' l ∧ n ≤ v'.alloc ∧
      v'.used = v.used ∧ Frame h v h' v' := by
  unfold reserve
  simp only []
  by_cases hc : n ≤ v.alloc
  · rw [if_pos (by omega)]
    exact ⟨h, v, rfl, r, hc, rfl, Frame.refl hf r.good⟩
  · rw [if_neg (by omega), show max v.alloc n = n by omega]
    have hge := nextPow2_ge hl (by omega)
    generalize (Arith.nextPow2 (BitVec.ofNat W n)).toNat = nx at hge
    have hgood := r.good
    cases r with
    | null hv hl0 =>
      subst hv; subst hl0
      simp only [Heap.alloc, migrate, Vec.empty, freeOld, bind, Except.bind, pure, Except.pure, if_true,
        Bool.false_eq_true, if_false]
      refine ⟨_, _, rfl, .blk h.next (List.replicate nx .raw) rfl (by simp) (by simp) rfl (by simp)
        (fun _ s hs => (List.mem_replicate.1 hs).2), by simp; omega, rfl, ?_⟩
      exact {
        good0 := by intro b hb; cases hb
        good := by intro b hb; cases hb; simp
        next_le := by simp
        fresh := by intro b hb; simp only at hb ⊢; rw [if_neg (by omega)]; exact hf b (by omega)
        other := by intro b hb _; simp only; rw [if_neg (by omega)]
        ptr := Or.inr (Or.inr ⟨h.next, Nat.le_refl _, rfl, rfl⟩)
        new := by
          intro b hb hn
          simp only at hn ⊢
          by_cases e : b = h.next
          · rw [e]
          · rw [if_neg e] at hn; exact absurd (hf b hb) hn
        old := by intro b hb; cases hb }
    | blk b rest hp hb hs hu ha hr =>
      have hne : b ≠ h.next := by omega
      simp only [Heap.alloc]
      have hmig : migrate strict ⟨fun x => if x = h.next then some (List.replicate nx .raw) else h.blocks x,
            h.next + 1⟩ v h.next = .ok
          ((⟨fun x => if x = h.next then some (List.replicate nx .raw) else h.blocks x, h.next + 1⟩ :
            Heap α).setBlk b (some (List.replicate l.length .raw ++ rest)) |>.setBlk h.next
              (some (vals l ++ List.replicate (nx - l.length) .raw))) := by
        unfold migrate
        split
        · next h0 =>
          have : l = [] := List.length_eq_zero_iff.1 (by omega)
          subst this
          rw [setBlk_self _ (b := b), setBlk_self _ (b := h.next)]
          · simp
          · simp [hne, hs]
        · simp only [Vec.base, hp, bind, Except.bind, hu]
          rw [moveLoop_ok hne (l := l) (rest := rest) (tail := []) l.length (Nat.le_refl _) nx (by omega)
            (by simp [hne, hs]) (by simp)]
          simp only []
          rw [destroyLoop_ok (p := []) (lo := 0) (q := rest) (List.replicate l.length .moved) rfl
            (by intro s hs; rw [(List.mem_replicate.1 hs).2]; rfl)
            (by simp [hne]) l.length (by simp)]
          congr 1
          rw [setBlk_comm _ hne, setBlk_setBlk, setBlk_comm _ (Ne.symm hne)]
          simp
      simp only [hmig, bind, Except.bind, pure, Except.pure]
      have hrep : ∀ H : Heap α, H.next = h.next + 1 →
          H.blocks h.next = some (vals l ++ List.replicate (nx - l.length) .raw) →
          Rep strict H { ptr := some h.next, used := v.used, alloc := nx, self := true } l := by
        intro H h1 h2
        exact .blk h.next _ rfl (by omega) h2 hu (by simp; omega)
          (fun _ s hs => (List.mem_replicate.1 hs).2)
      unfold freeOld
      by_cases hself : v.self = true
      · simp only [hself, if_true, Vec.base, hp, bind, Except.bind]
        rw [free_ok (ss := List.replicate l.length .raw ++ rest) (by simp [hne])
          (by
            intro e s hs
            rcases List.mem_append.1 hs with hs | hs
            · exact (List.mem_replicate.1 hs).2
            · exact hr e s hs)]
        refine ⟨_, _, rfl, hrep _ rfl (by simp [Ne.symm hne]), hge, rfl, ?_⟩
        exact {
          good0 := hgood
          good := by
            intro c hc; cases hc
            simp [Ne.symm hne]
          next_le := by simp
          fresh := by
            intro c hc
            simp only [setBlk_next] at hc
            simp only [setBlk_blocks]
            rw [if_neg (by omega), if_neg (by omega), if_neg (by omega), if_neg (by omega)]
            exact hf c (by omega)
          other := by
            intro c hc hn
            have : c ≠ b := by intro e; rw [e] at hn; exact hn hp
            simp only [setBlk_blocks]
            rw [if_neg this, if_neg (by omega), if_neg this, if_neg (by omega)]
          ptr := Or.inr (Or.inr ⟨h.next, Nat.le_refl _, rfl, rfl⟩)
          new := by
            intro c hc hn
            simp only
            by_cases e : c = h.next
            · rw [e]
            · simp only [setBlk_blocks] at hn
              rw [if_neg (by omega), if_neg e, if_neg (by omega), if_neg e] at hn
              exact absurd (hf c hc) hn
          old := by
            intro c hc _
            rw [hp] at hc; cases hc
            simp [hself] }
      · simp only [hself, Bool.false_eq_true, if_false]
        refine ⟨_, _, rfl, hrep _ rfl (by simp), hge, rfl, ?_⟩
        exact {
          good0 := hgood
          good := by
            intro c hc; cases hc
            simp [Ne.symm hne]
          next_le := by simp
          fresh := by
            intro c hc
            simp only [setBlk_next] at hc
            simp only [setBlk_blocks]
            rw [if_neg (by omega), if_neg (by omega), if_neg (by omega)]
            exact hf c (by omega)
          other := by
            intro c hc hn
            have : c ≠ b := by intro e; rw [e] at hn; exact hn hp
            simp only [setBlk_blocks]
            rw [if_neg (by omega), if_neg this, if_neg (by omega)]
          ptr := Or.inr (Or.inr ⟨h.next, Nat.le_refl _, rfl, rfl⟩)
          new := by
            intro c hc hn
            simp only
            by_cases e : c = h.next
            · rw [e]
            · simp only [setBlk_blocks] at hn
              rw [if_neg e, if_neg (by omega), if_neg e] at hn
              exact absurd (hf c hc) hn
          old := by
            intro c hc _
            rw [hp] at hc; cases hc
            simp [hself, hne] }

end Cista.Vector

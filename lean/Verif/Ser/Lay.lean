import Verif.Ser.Check

/-!
# Layout of a serialized value

A bookkeeping relation between a source value and the positions of its parts in the buffer, shared by the proofs about the
serializer and the deserializer.  It is not part of any statement of a property.
-/
set_option linter.unusedSimpArgs false
set_option linter.unusedSectionVars false

namespace Cista.Ser

/-- A part of a serialized value: an integer (source bytes), bytes, an owning pointer (position of its target), a pointer member
(source target). -/
inductive Leaf where
  | int (bs : List Byte)
  | raw (bs : List Byte)
  | own (o : Option Nat)
  | ptr (x : Option Nat) (p : Pointee)

/-- Number of bytes. -/
def Leaf.width : Leaf → Nat
  | .int bs => bs.length
  | .raw bs => bs.length
  | .own _ => 8
  | .ptr _ _ => 8

/-- A source object other pointers may refer to: its address, its position, its size and alignment.  `exact` objects are only
found by their address, the others by any address inside. -/
structure Place where
  exact : Bool
  v : Nat
  y : Nat
  n : Nat
  al : Nat

/-- Address `x` of the source corresponds to position `z`. -/
def Place.covers (pl : Place) (x z : Nat) : Prop :=
  if pl.exact then x = pl.v ∧ z = pl.y else pl.v ≤ x ∧ x < pl.v + pl.n ∧ z = pl.y + (x - pl.v)

abbrev Rel := Nat → Nat → List (Nat × Leaf) → List Place → Prop

/-- Consecutive parts `i, …, i+k-1`, each continuing where the previous one ended. -/
def ChainFrom (R : Nat → Rel) : (i k : Nat) → Rel
  | _, 0, L, L', lv, pl => L' = L ∧ lv = [] ∧ pl = []
  | i, k + 1, L, L', lv, pl => ∃ M lv1 lv2 pl1 pl2, R i L M lv1 pl1 ∧ ChainFrom R (i + 1) k M L' lv2 pl2 ∧
      lv = lv1 ++ lv2 ∧ pl = pl1 ++ pl2

/-- Header members of a vector. -/
def vecLeaves (e : SEnv) (sw a p : Nat) (s : Option Nat) : List (Nat × Leaf) :=
  [(p, .own s), (p + 8 + sw, .int (rd e.mem (a + 8) sw)), (p + 8, .int (rd e.mem (a + 8) sw)), (p + 8 + 2 * sw, .raw [0#8])]

/-- Members of a long string. -/
def strLeaves (e : SEnv) (a p : Nat) (s : Option Nat) : List (Nat × Leaf) :=
  [(p, .raw [0#8]), (p + 8, .own s), (p + 4, .int (rd e.mem (a + 4) 4)), (p + 1, .raw [0#8])]

/-- Members of a hash table. -/
def hashLeaves (e : SEnv) (a p : Nat) (s : Option Nat) (ctrl : Nat) : List (Nat × Leaf) :=
  [(p, .own s), (p + 8, .own (some ctrl)), (p + 40, .raw [0#8]), (p + 16, .int (rd e.mem (a + 16) 8)),
    (p + 24, .int (rd e.mem (a + 24) 8)), (p + 32, .int (rd e.mem (a + 32) 8))]

/-- The object at address `a` is at position `p`; everything it owns is in `[L, L')`. -/
def Lay (e : SEnv) : Ty → (a p : Nat) → Rel
  | .int w, a, p, L, L', lv, pl => L' = L ∧ lv = [(p, .int (rd e.mem a w))] ∧ pl = []
  | .blob s _, a, p, L, L', lv, pl => L' = L ∧ lv = [(p, .raw (rd e.mem a s))] ∧ pl = []
  | .ptr pt, a, p, L, L', lv, pl => L' = L ∧ lv = [(p, .ptr (ptrAt e.host e.raw e.mem a) pt)] ∧ pl = []
  | .vec sw ix t, a, p, L, L', lv, pl =>
    (rdN e.host e.mem (a + 8) sw = 0 ∧ L' = L ∧ lv = vecLeaves e sw a p none ∧ pl = []) ∨
    (0 < rdN e.host e.mem (a + 8) sw ∧ ∃ el s lv' pl', ptrAt e.host e.raw e.mem a = some el ∧ L ≤ s ∧ t.alignof ∣ s ∧
      ChainFrom (fun i => Lay e t (el + i * t.sizeof) (s + i * t.sizeof)) 0 (rdN e.host e.mem (a + 8) sw)
        (s + rdN e.host e.mem (a + 8) sw * t.sizeof) L' lv' pl' ∧
      lv = vecLeaves e sw a p (some s) ++ lv' ∧
      pl = (if ix then [⟨false, el, s, rdN e.host e.mem (a + 8) sw * t.sizeof, t.alignof⟩] else []) ++ pl')
  | .str, a, p, L, L', lv, pl =>
    pl = [] ∧ ((e.mem a = 1#8 ∧ L' = L ∧ lv = [(p, .raw (rd e.mem a 16))]) ∨
      (e.mem a = 0#8 ∧ rdN e.host e.mem (a + 4) 4 = 0 ∧ ptrAt e.host e.raw e.mem (a + 8) = none ∧ L' = L ∧ lv = strLeaves e a p none) ∨
      (e.mem a = 0#8 ∧ 0 < rdN e.host e.mem (a + 4) 4 ∧ ∃ x, ptrAt e.host e.raw e.mem (a + 8) = some x ∧ L' = L + rdN e.host e.mem (a + 4) 4 ∧
        lv = strLeaves e a p (some L) ++ [(L, .raw (rd e.mem x (rdN e.host e.mem (a + 4) 4)))]))
  | .uptr t, a, p, L, L', lv, pl =>
    (ptrAt e.host e.raw e.mem a = none ∧ L' = L ∧ lv = [(p, .own none), (p + 8, .raw [0#8])] ∧ pl = []) ∨
    (∃ el s lv' pl', ptrAt e.host e.raw e.mem a = some el ∧ L ≤ s ∧ t.alignof ∣ s ∧ Lay e t el s (s + t.sizeof) L' lv' pl' ∧
      lv = [(p, .own (some s)), (p + 8, .raw [0#8])] ++ lv' ∧ pl = ⟨true, el, s, t.sizeof, t.alignof⟩ :: pl')
  | .hash t, a, p, L, L', lv, pl =>
    (ptrAt e.host e.raw e.mem a = none ∧ rdN e.host e.mem (a + 24) 8 = 0 ∧ rdN e.host e.mem (a + 16) 8 = 0 ∧ L' = L + 16 ∧
      lv = hashLeaves e a p none L ++ [(L, .raw emptyGroup)] ∧ pl = []) ∨
    (∃ el s lv', ptrAt e.host e.raw e.mem a = some el ∧
      ptrAt e.host e.raw e.mem (a + 8) = some (el + rdN e.host e.mem (a + 24) 8 * t.sizeof) ∧ 0 < rdN e.host e.mem (a + 24) 8 ∧
      HTable (ctl e.mem (el + rdN e.host e.mem (a + 24) 8 * t.sizeof) (rdN e.host e.mem (a + 24) 8 + 9)) (rdN e.host e.mem (a + 24) 8)
        (rdN e.host e.mem (a + 16) 8) (rdN e.host e.mem (a + 32) 8) ∧ L ≤ s ∧ t.alignof ∣ s ∧
      ChainFrom (fun i L L' lv pl =>
          (Full e.mem (el + rdN e.host e.mem (a + 24) 8 * t.sizeof) i → Lay e t (el + i * t.sizeof) (s + i * t.sizeof) L L' lv pl) ∧
          (¬ Full e.mem (el + rdN e.host e.mem (a + 24) 8 * t.sizeof) i → L' = L ∧ lv = [] ∧ pl = []))
        0 (rdN e.host e.mem (a + 24) 8)
        (s + (rdN e.host e.mem (a + 24) 8 * t.sizeof + (rdN e.host e.mem (a + 24) 8 + 9))) L' lv' pl ∧
      lv = hashLeaves e a p (some s) (s + rdN e.host e.mem (a + 24) 8 * t.sizeof) ++
        (s + rdN e.host e.mem (a + 24) 8 * t.sizeof,
          .raw (rd e.mem (el + rdN e.host e.mem (a + 24) 8 * t.sizeof) (rdN e.host e.mem (a + 24) 8 + 9))) :: lv')
  | .opt t, a, p, L, L', lv, pl =>
    (e.mem a = 0#8 ∧ L' = L ∧ lv = [(p, .raw [0#8])] ∧ pl = []) ∨
    (e.mem a = 1#8 ∧ ∃ lv', Lay e t (a + t.alignof) (p + t.alignof) L L' lv' pl ∧ lv = (p, .raw [1#8]) :: lv')
  | .var ib so _ _ n t, a, p, L, L', lv, pl =>
    ∃ (i : Fin n) (lv' : List (Nat × Leaf)), rdN e.host e.mem a ib = i.1 ∧ Lay e (t i) (a + so) (p + so) L L' lv' pl ∧
      lv = (p, .int (rd e.mem a ib)) :: lv'
  | .arr n t, a, p, L, L', lv, pl =>
    ChainFrom (fun i => Lay e t (a + i * t.sizeof) (p + i * t.sizeof)) 0 n L L' lv pl
  | .idx t, a, p, L, L', lv, pl => ∃ pl', Lay e t a p L L' lv pl' ∧ pl = ⟨true, a, p, t.sizeof, t.alignof⟩ :: pl'
  | .agg _ _ n off t, a, p, L, L', lv, pl =>
    ChainFrom (fun i L L' lv pl => ∃ h : i < n, Lay e (t ⟨i, h⟩) (a + off ⟨i, h⟩) (p + off ⟨i, h⟩) L L' lv pl) 0 n L L' lv pl

/-- A leaf at `q` lies in the object itself or in what it owns. -/
def Within (p sz L L' : Nat) (q w : Nat) : Prop := (p ≤ q ∧ q + w ≤ p + sz) ∨ (L ≤ q ∧ q + w ≤ L')

theorem Within.up {p sz L L' p' sz' M M' q w : Nat} (h : Within p sz L L' q w)
    (h1 : (p' ≤ p ∧ p + sz ≤ p' + sz') ∨ (M ≤ p ∧ p + sz ≤ M')) (h2 : M ≤ L) (h3 : L' ≤ M') : Within p' sz' M M' q w := by
  unfold Within at *
  omega

/-- Geometry of a chain of parts. -/
theorem ChainFrom.geo {R : Nat → Rel} {p sz : Nat → Nat} :
    ∀ (k i L L' : Nat) (lv : List (Nat × Leaf)) (pl : List Place), (∀ j, i ≤ j → j < i + k → p j + sz j ≤ L) →
    (∀ j, i ≤ j → j < i + k → ∀ M M' lv pl, p j + sz j ≤ M → R j M M' lv pl → M ≤ M' ∧ (∀ l ∈ lv, Within (p j) (sz j) M M' l.1 l.2.width) ∧
      ∀ c ∈ pl, Within (p j) (sz j) M M' c.y c.n ∧ c.al ∣ c.y) →
    ChainFrom R i k L L' lv pl → L ≤ L' ∧ (∀ l ∈ lv, ∃ j M M', i ≤ j ∧ j < i + k ∧ L ≤ M ∧ M' ≤ L' ∧ Within (p j) (sz j) M M' l.1 l.2.width) ∧
      ∀ c ∈ pl, (∃ j M M', i ≤ j ∧ j < i + k ∧ L ≤ M ∧ M' ≤ L' ∧ Within (p j) (sz j) M M' c.y c.n) ∧ c.al ∣ c.y
  | 0, i, L, L', lv, pl, _, _, h => by
    obtain ⟨rfl, rfl, rfl⟩ := h
    exact ⟨Nat.le_refl _, fun l hl => by simp at hl, fun l hl => by simp at hl⟩
  | k + 1, i, L, L', lv, pl, hp, hR, h => by
    obtain ⟨M, lv1, lv2, pl1, pl2, h1, h2, rfl, rfl⟩ := h
    obtain ⟨g1, g2, g3⟩ := hR i (Nat.le_refl _) (by omega) L M lv1 pl1 (hp i (Nat.le_refl _) (by omega)) h1
    obtain ⟨f1, f2, f3⟩ := ChainFrom.geo k (i + 1) M L' lv2 pl2 (fun j hj hk => Nat.le_trans (hp j (by omega) (by omega)) g1)
      (fun j hj hk => hR j (by omega) (by omega)) h2
    refine ⟨by omega, fun l hl => ?_, fun c hc => ?_⟩
    · rcases List.mem_append.1 hl with hl | hl
      · exact ⟨i, L, M, Nat.le_refl _, by omega, Nat.le_refl _, f1, g2 l hl⟩
      · obtain ⟨j, N, N', a1, a2, a3, a4, a5⟩ := f2 l hl
        exact ⟨j, N, N', by omega, by omega, by omega, a4, a5⟩
    · rcases List.mem_append.1 hc with hc | hc
      · exact ⟨⟨i, L, M, Nat.le_refl _, by omega, Nat.le_refl _, f1, (g3 c hc).1⟩, (g3 c hc).2⟩
      · obtain ⟨⟨j, N, N', a1, a2, a3, a4, a5⟩, a6⟩ := f3 c hc
        exact ⟨⟨j, N, N', by omega, by omega, by omega, a4, a5⟩, a6⟩

theorem mul_bound {i n s : Nat} (h : i < n) : i * s + s ≤ n * s := by
  have := Nat.mul_le_mul_right s (show i + 1 ≤ n from h)
  rw [Nat.add_mul, Nat.one_mul] at this
  exact this

/-- Where the parts of a value are. -/
theorem Lay.geo {e : SEnv} : ∀ (t : Ty), t.WF → ∀ (a p L L' : Nat) (lv : List (Nat × Leaf)) (pl : List Place), t.alignof ∣ p →
    p + t.sizeof ≤ L → Lay e t a p L L' lv pl →
    L ≤ L' ∧ (∀ l ∈ lv, Within p t.sizeof L L' l.1 l.2.width) ∧ ∀ c ∈ pl, Within p t.sizeof L L' c.y c.n ∧ c.al ∣ c.y := by
  intro t
  induction t with
  | int w =>
    intro hw a p L L' lv pl _ hp h
    obtain ⟨rfl, rfl, rfl⟩ := h
    refine ⟨Nat.le_refl _, fun l hl => ?_, fun c hc => by simp at hc⟩
    simp only [List.mem_singleton] at hl
    subst hl
    left
    simp [Leaf.width, Ty.sizeof]
  | blob s al =>
    intro hw a p L L' lv pl _ hp h
    obtain ⟨rfl, rfl, rfl⟩ := h
    refine ⟨Nat.le_refl _, fun l hl => ?_, fun c hc => by simp at hc⟩
    simp only [List.mem_singleton] at hl
    subst hl
    left
    simp [Leaf.width, Ty.sizeof]
  | ptr pt =>
    intro hw a p L L' lv pl _ hp h
    obtain ⟨rfl, rfl, rfl⟩ := h
    refine ⟨Nat.le_refl _, fun l hl => ?_, fun c hc => by simp at hc⟩
    simp only [List.mem_singleton] at hl
    subst hl
    left
    simp [Leaf.width, Ty.sizeof]
  | vec sw ix t ih =>
    intro hw a p L L' lv pl _ hp h
    have htp := Ty.pos_of_WF (t := t) hw.2
    have hh : ∀ s l, l ∈ vecLeaves e sw a p s → Within p (Ty.vec sw ix t).sizeof L L' l.1 l.2.width := by
      intro s l hl
      simp only [vecLeaves, List.mem_cons, List.not_mem_nil, or_false] at hl
      rcases hl with rfl | rfl | rfl | rfl <;> left <;> simp [Leaf.width, Ty.sizeof] <;> omega
    rcases h with ⟨_, rfl, rfl, rfl⟩ | ⟨hn, el, s, lv', pl', _, hs, hal, hc, rfl, rfl⟩
    · exact ⟨Nat.le_refl _, fun l hl => hh _ l hl, fun c hc => by simp at hc⟩
    · have hb : ∀ j, j < rdN e.host e.mem (a + 8) sw → s + j * t.sizeof + t.sizeof ≤ s + rdN e.host e.mem (a + 8) sw * t.sizeof :=
        fun j hj => by have := mul_bound (s := t.sizeof) hj; omega
      obtain ⟨g1, g2, g3⟩ := ChainFrom.geo (p := fun j => s + j * t.sizeof) (sz := fun _ => t.sizeof) _ 0 _ _ _ _ (fun j _ hj => hb j (by omega))
        (fun j _ hj M M' lv pl hM hl => ih hw.2 _ _ M M' lv pl
          (Nat.dvd_add hal (Nat.dvd_trans htp.2.2 (Nat.dvd_mul_left _ _))) hM hl) hc
      refine ⟨by omega, fun l hl => ?_, fun c hc => ?_⟩
      · rcases List.mem_append.1 hl with hl | hl
        · exact hh _ l hl
        · obtain ⟨j, M, M', a1, a2, a3, a4, a5⟩ := g2 l hl
          have := hb j (by omega)
          exact a5.up (Or.inr ⟨by omega, by omega⟩) (by omega) (by omega)
      · rcases List.mem_append.1 hc with hc | hc
        · cases ix
          · simp at hc
          · simp only [if_true, List.mem_singleton] at hc
            subst hc
            exact ⟨Or.inr ⟨hs, g1⟩, hal⟩
        · obtain ⟨⟨j, M, M', a1, a2, a3, a4, a5⟩, a6⟩ := g3 c hc
          have := hb j (by omega)
          exact ⟨a5.up (Or.inr ⟨by omega, by omega⟩) (by omega) (by omega), a6⟩
  | str =>
    intro hw a p L L' lv pl _ hp h
    have hh : ∀ s l, l ∈ strLeaves e a p s → Within p Ty.str.sizeof L L' l.1 l.2.width := by
      intro s l hl
      simp only [strLeaves, List.mem_cons, List.not_mem_nil, or_false] at hl
      rcases hl with rfl | rfl | rfl | rfl <;> left <;> simp [Leaf.width, Ty.sizeof]
    obtain ⟨rfl, h⟩ := h
    rcases h with ⟨_, rfl, rfl⟩ | ⟨_, _, _, rfl, rfl⟩ | ⟨_, _, x, _, rfl, rfl⟩
    · refine ⟨Nat.le_refl _, fun l hl => ?_, fun c hc => by simp at hc⟩
      simp only [List.mem_singleton] at hl
      subst hl
      left
      simp [Leaf.width, Ty.sizeof]
    · exact ⟨Nat.le_refl _, fun l hl => hh _ l hl, fun c hc => by simp at hc⟩
    · refine ⟨by omega, fun l hl => ?_, fun c hc => by simp at hc⟩
      rcases List.mem_append.1 hl with hl | hl
      · exact hh _ l hl
      · simp only [List.mem_singleton] at hl
        subst hl
        right
        simp [Leaf.width]
  | uptr t ih =>
    intro hw a p L L' lv pl _ hp h
    have htp := Ty.pos_of_WF (t := t) hw
    have hh : ∀ s l, l ∈ [(p, Leaf.own s), (p + 8, Leaf.raw [0#8])] → Within p (Ty.uptr t).sizeof L L' l.1 l.2.width := by
      intro s l hl
      simp only [List.mem_cons, List.not_mem_nil, or_false] at hl
      rcases hl with rfl | rfl <;> left <;> simp [Leaf.width, Ty.sizeof]
    rcases h with ⟨_, rfl, rfl, rfl⟩ | ⟨el, s, lv', pl', _, hs, hal, hc, rfl, rfl⟩
    · exact ⟨Nat.le_refl _, fun l hl => hh _ l hl, fun c hc => by simp at hc⟩
    · obtain ⟨g1, g2, g3⟩ := ih hw _ _ _ _ _ _ hal (Nat.le_refl _) hc
      refine ⟨by omega, fun l hl => ?_, fun c hc => ?_⟩
      · rcases List.mem_append.1 hl with hl | hl
        · exact hh _ l hl
        · exact (g2 l hl).up (Or.inr ⟨by omega, by omega⟩) (by omega) (by omega)
      · rcases List.mem_cons.1 hc with hc | hc
        · subst hc
          exact ⟨Or.inr ⟨hs, g1⟩, hal⟩
        · exact ⟨(g3 c hc).1.up (Or.inr ⟨by omega, by omega⟩) (by omega) (by omega), (g3 c hc).2⟩
  | hash t ih =>
    intro hw a p L L' lv pl _ hp h
    have htp := Ty.pos_of_WF (t := t) hw
    have hh : ∀ s c l, l ∈ hashLeaves e a p s c → Within p (Ty.hash t).sizeof L L' l.1 l.2.width := by
      intro s c l hl
      simp only [hashLeaves, List.mem_cons, List.not_mem_nil, or_false] at hl
      rcases hl with rfl | rfl | rfl | rfl | rfl | rfl <;> left <;> simp [Leaf.width, Ty.sizeof]
    rcases h with ⟨_, _, _, rfl, rfl, rfl⟩ | ⟨el, s, lv', _, _, hn, _, hs, hal, hc, rfl⟩
    · refine ⟨by omega, fun l hl => ?_, fun c hc => by simp at hc⟩
      rcases List.mem_append.1 hl with hl | hl
      · exact hh _ _ l hl
      · simp only [List.mem_singleton] at hl
        subst hl
        right
        exact ⟨Nat.le_refl _, Nat.le_refl _⟩
    · generalize hcap : rdN e.host e.mem (a + 24) 8 = cap at *
      have hb : ∀ j, j < cap → s + j * t.sizeof + t.sizeof ≤ s + cap * t.sizeof :=
        fun j hj => by have := mul_bound (s := t.sizeof) hj; omega
      obtain ⟨g1, g2, g3⟩ := ChainFrom.geo (p := fun j => s + j * t.sizeof) (sz := fun _ => t.sizeof) _ 0 _ _ _ _
        (fun j _ hj => by have := hb j (by omega); omega)
        (fun j _ hj M M' lv pl hM hl => by
          by_cases hf : Full e.mem (el + cap * t.sizeof) j
          · exact ih hw _ _ M M' lv pl (Nat.dvd_add hal (Nat.dvd_trans htp.2.2 (Nat.dvd_mul_left _ _))) hM (hl.1 hf)
          · obtain ⟨rfl, rfl, rfl⟩ := hl.2 hf
            exact ⟨Nat.le_refl _, (fun l hl => by simp at hl), fun l hl => by simp at hl⟩) hc
      refine ⟨by omega, fun l hl => ?_, fun c hc => ?_⟩
      · rcases List.mem_append.1 hl with hl | hl
        · exact hh _ _ l hl
        · rcases List.mem_cons.1 hl with hl | hl
          · subst hl
            right
            simp only [Leaf.width, length_rd]
            omega
          · obtain ⟨j, M, M', a1, a2, a3, a4, a5⟩ := g2 l hl
            have := hb j (by omega)
            exact a5.up (Or.inr ⟨by omega, by omega⟩) (by omega) (by omega)
      · obtain ⟨⟨j, M, M', a1, a2, a3, a4, a5⟩, a6⟩ := g3 c hc
        have := hb j (by omega)
        exact ⟨a5.up (Or.inr ⟨by omega, by omega⟩) (by omega) (by omega), a6⟩
  | opt t ih =>
    intro hw a p L L' lv pl hdp hp h
    have htp := Ty.pos_of_WF (t := t) hw
    simp only [Ty.sizeof, Ty.alignof] at hp hdp ⊢
    rcases h with ⟨_, rfl, rfl, rfl⟩ | ⟨_, lv', hc, rfl⟩
    · refine ⟨Nat.le_refl _, fun l hl => ?_, fun c hc => by simp at hc⟩
      simp only [List.mem_singleton] at hl
      subst hl
      left
      simp [Leaf.width]
      omega
    · obtain ⟨g1, g2, g3⟩ := ih hw _ _ _ _ _ _ (Nat.dvd_add hdp (Nat.dvd_refl _)) (by omega) hc
      refine ⟨g1, fun l hl => ?_, fun c hc => ?_⟩
      · rcases List.mem_cons.1 hl with hl | hl
        · subst hl
          left
          simp [Leaf.width]
          omega
        · exact (g2 l hl).up (Or.inl ⟨by omega, by omega⟩) (by omega) (by omega)
      · exact ⟨(g3 c hc).1.up (Or.inl ⟨by omega, by omega⟩) (by omega) (by omega), (g3 c hc).2⟩
  | var ib so s al n t ih =>
    intro hw a p L L' lv pl hdp hp h
    simp only [Ty.WF] at hw
    obtain ⟨hib, hn, hso, hal, hdv, hia, hso', hs0, hti⟩ := hw
    simp only [Ty.sizeof, Ty.alignof] at hp hdp ⊢
    obtain ⟨i, lv', _, hc, rfl⟩ := h
    have hi := hti i
    obtain ⟨g1, g2, g3⟩ := ih i hi.1 _ _ _ _ _ _ (Nat.dvd_add (Nat.dvd_trans hi.2.2.2 hdp) hi.2.2.1) (by omega) hc
    refine ⟨g1, fun l hl => ?_, fun c hc => ?_⟩
    · rcases List.mem_cons.1 hl with hl | hl
      · subst hl
        left
        simp [Leaf.width]
        omega
      · exact (g2 l hl).up (Or.inl ⟨by omega, by omega⟩) (by omega) (by omega)
    · exact ⟨(g3 c hc).1.up (Or.inl ⟨by omega, by omega⟩) (by omega) (by omega), (g3 c hc).2⟩
  | arr n t ih =>
    intro hw a p L L' lv pl hdp hp h
    have htp := Ty.pos_of_WF (t := t) hw.2
    simp only [Ty.sizeof, Ty.alignof] at hp hdp ⊢
    have hb : ∀ j, j < n → p + j * t.sizeof + t.sizeof ≤ p + n * t.sizeof :=
      fun j hj => by have := mul_bound (s := t.sizeof) hj; omega
    obtain ⟨g1, g2, g3⟩ := ChainFrom.geo (p := fun j => p + j * t.sizeof) (sz := fun _ => t.sizeof) _ 0 _ _ _ _
      (fun j _ hj => by have := hb j (by omega); omega)
      (fun j _ hj M M' lv pl hM hl => ih hw.2 _ _ M M' lv pl
        (Nat.dvd_add hdp (Nat.dvd_trans htp.2.2 (Nat.dvd_mul_left _ _))) hM hl) h
    refine ⟨g1, fun l hl => ?_, fun c hc => ?_⟩
    · obtain ⟨j, M, M', a1, a2, a3, a4, a5⟩ := g2 l hl
      have := hb j (by omega)
      exact a5.up (Or.inl ⟨by omega, by omega⟩) (by omega) (by omega)
    · obtain ⟨⟨j, M, M', a1, a2, a3, a4, a5⟩, a6⟩ := g3 c hc
      have := hb j (by omega)
      exact ⟨a5.up (Or.inl ⟨by omega, by omega⟩) (by omega) (by omega), a6⟩
  | idx t ih =>
    intro hw a p L L' lv pl hdp hp h
    obtain ⟨pl', hc, rfl⟩ := h
    obtain ⟨g1, g2, g3⟩ := ih hw _ _ _ _ _ _ hdp hp hc
    refine ⟨g1, g2, fun c hc => ?_⟩
    rcases List.mem_cons.1 hc with hc | hc
    · subst hc
      exact ⟨Or.inl ⟨Nat.le_refl _, Nat.le_refl _⟩, hdp⟩
    · exact g3 c hc
  | agg s al n off t ih =>
    intro hw a p L L' lv pl hdp hp h
    simp only [Ty.WF] at hw
    obtain ⟨hs0, hal, hdv, hti, _⟩ := hw
    simp only [Ty.sizeof, Ty.alignof] at hp hdp ⊢
    obtain ⟨g1, g2, g3⟩ := ChainFrom.geo (p := fun j => if h : j < n then p + off ⟨j, h⟩ else p)
      (sz := fun j => if h : j < n then (t ⟨j, h⟩).sizeof else 0) _ 0 _ _ _ _
      (fun j _ hj => by
        have hjn : j < n := by omega
        simp only [dif_pos hjn]
        have := (hti ⟨j, hjn⟩).2.1
        omega)
      (fun j _ hj M M' lv pl hM hl => by
        obtain ⟨hjn, hl⟩ := hl
        simp only [dif_pos hjn] at hM ⊢
        have hj := hti ⟨j, hjn⟩
        exact ih ⟨j, hjn⟩ hj.1 _ _ M M' lv pl (Nat.dvd_add (Nat.dvd_trans hj.2.2.2 hdp) hj.2.2.1) hM hl) h
    have hb : ∀ j q w M M', j < n → L ≤ M → M' ≤ L' →
        Within (if h : j < n then p + off ⟨j, h⟩ else p) (if h : j < n then (t ⟨j, h⟩).sizeof else 0) M M' q w → Within p s L L' q w := by
      intro j q w M M' hj h1 h2 h3
      simp only [dif_pos hj] at h3
      have := (hti ⟨j, hj⟩).2.1
      exact h3.up (Or.inl ⟨by omega, by omega⟩) h1 h2
    refine ⟨g1, fun l hl => ?_, fun c hc => ?_⟩
    · obtain ⟨j, M, M', a1, a2, a3, a4, a5⟩ := g2 l hl
      exact hb j _ _ M M' (by omega) a3 a4 a5
    · obtain ⟨⟨j, M, M', a1, a2, a3, a4, a5⟩, a6⟩ := g3 c hc
      exact ⟨hb j _ _ M M' (by omega) a3 a4 a5, a6⟩

end Cista.Ser

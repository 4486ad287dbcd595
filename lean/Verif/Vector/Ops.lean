import Verif.Vector.Lemmas

set_option linter.unusedSimpArgs false

namespace Cista.Vector

open Cista.Mem

variable {α : Type}
variable {W : Nat} {strict : Bool} {h : Heap α} {v : Vec} {l : List α}

theorem raw_append {p q : List (Slot α)} (h : strict = true → ∀ s ∈ p ++ q, s = Slot.raw) :
    (strict = true → ∀ s ∈ p, s = Slot.raw) ∧ (strict = true → ∀ s ∈ q, s = Slot.raw) :=
  ⟨fun e s hs => h e s (List.mem_append_left _ hs), fun e s hs => h e s (List.mem_append_right _ hs)⟩

theorem base_ok {b : Nat} (hp : v.ptr = some b) : v.base = .ok b := by simp [Vec.base, hp]

/-- Appending `xs` within the capacity. -/
theorem constructFrom_ok (r : Rep strict h v l) (hf : Fresh h) (xs : List α)
    (hcap : l.length + xs.length ≤ v.alloc) :
    ∃ h', constructFrom strict h v v.used xs = .ok h' ∧
      Rep strict h' { v with used := l.length + xs.length } (l ++ xs) ∧
      Frame h v h' { v with used := l.length + xs.length } := by
  cases xs with
  | nil =>
    have hu := r.used
    refine ⟨h, rfl, ?_, ?_⟩
    · have : ({ v with used := l.length + ([] : List α).length } : Vec) = v := by
        cases v; simp at hu ⊢; exact hu.symm
      rw [this]; simpa using r
    · have : ({ v with used := l.length + ([] : List α).length } : Vec) = v := by
        cases v; simp at hu ⊢; exact hu.symm
      rw [this]; exact Frame.refl hf r.good
  | cons a xs =>
    obtain ⟨b, rest, hp, hb, hs, hu, ha, hr⟩ := r.toBlk (by simp at hcap; omega)
    simp only [constructFrom, base_ok hp, bind, Except.bind]
    have hsplit : rest = rest.take (a :: xs).length ++ rest.drop (a :: xs).length := by simp
    have hlen : (rest.take (a :: xs).length).length = (a :: xs).length := by
      rw [List.length_take]; omega
    rw [hsplit] at hr
    obtain ⟨hr1, hr2⟩ := raw_append hr
    rw [constructAll_ok (a :: xs) (p := vals l) (mid := rest.take (a :: xs).length)
      (q := rest.drop (a :: xs).length) (by simp [hu]) hlen hr1 (by rw [hs, ← hsplit])]
    refine ⟨_, rfl, .blk b _ hp hb (by rw [setBlk_blocks, if_pos rfl]; simp [vals])
      (by simp) ?_ hr2, Frame.inPlace hf r.good hp _ rfl rfl⟩
    simp only [List.length_append, List.length_drop]; omega

theorem pushBack_ok (r : Rep strict h v l) (hf : Fresh h) (hl : Lim W (l.length + 1)) (a : α) :
    ∃ h' v', pushBack W strict h v a = .ok (h', v') ∧ Rep strict h' v' (l ++ [a]) ∧
      Frame h v h' v' := by
  unfold pushBack
  rw [r.used, hl.mod]
  obtain ⟨h1, v1, e1, r1, hc, hu, f1⟩ := reserve_ok r hf hl
  rw [e1]
  simp only [bind, Except.bind, pure, Except.pure]
  obtain ⟨b, rest, hp, hb, hs, hu1, ha, hr⟩ := r1.toBlk (by omega)
  cases rest with
  | nil => simp at ha; omega
  | cons s rest =>
    simp only [base_ok hp]
    rw [construct_at (p := vals l) (s := s) (q := rest) hs (by simp [hu1])
      (fun e => hr e s List.mem_cons_self)]
    simp only []
    rw [hu1, hl.mod]
    refine ⟨_, _, rfl, .blk b rest hp hb (by simp) (by simp) ?_
      (fun e t ht => hr e t (List.mem_cons_of_mem _ ht)), f1.trans ?_⟩
    · simp at ha ⊢; omega
    · exact Frame.inPlace f1.fresh r1.good hp _ rfl rfl

theorem appendEach_ok (xs : List α) {h : Heap α} {v : Vec} {l : List α} (r : Rep strict h v l)
    (hf : Fresh h) (hl : Lim W (l.length + xs.length)) :
    ∃ h' v', appendEach W strict xs h v = .ok (h', v') ∧ Rep strict h' v' (l ++ xs) ∧
      Frame h v h' v' := by
  induction xs generalizing h v l with
  | nil => exact ⟨h, v, rfl, by simpa using r, Frame.refl hf r.good⟩
  | cons a xs ih =>
    obtain ⟨h1, v1, e1, r1, f1⟩ := pushBack_ok r hf ⟨hl.std, by have := hl.le; simp at this; omega⟩ a
    obtain ⟨h2, v2, e2, r2, f2⟩ := ih r1 f1.fresh ⟨hl.std, by have := hl.le; simp at this ⊢; omega⟩
    exact ⟨h2, v2, by simp [appendEach, e1, e2, bind, Except.bind], by simpa using r2, f1.trans f2⟩

theorem allVal_vals (l : List α) : allVal (vals l) = true := by
  simp [allVal, vals]

theorem rotateIn_ok {xs : List α} (r : Rep strict h v (l ++ xs)) (hf : Fresh h) {off : Nat}
    (ho : off ≤ l.length) :
    ∃ h', rotateIn h v off l.length = .ok (h', off + xs.length) ∧
      Rep strict h' v (l.take off ++ xs ++ l.drop off) ∧ Frame h v h' v := by
  unfold rotateIn
  have hu := r.used
  simp only [List.length_append] at hu
  split
  · next hc =>
    have : xs = [] := List.length_eq_zero_iff.1 (by omega)
    subst this
    refine ⟨h, by simp, by simpa using r, Frame.refl hf r.good⟩
  · next hc =>
    obtain ⟨b, rest, hp, hb, hs, hu, ha, hr⟩ := r.toBlk (by omega)
    simp only [base_ok hp, bind, Except.bind, pure, Except.pure, rotate, hs]
    have hdrop : (vals (l ++ xs) ++ rest).drop off = vals (l.drop off ++ xs) ++ rest := by
      rw [List.drop_append_of_le_length (by simp; omega)]
      congr 1
      rw [vals, ← List.map_drop, List.drop_append_of_le_length ho]
    have hmid : (vals (l ++ xs) ++ rest).drop l.length = vals xs ++ rest := by
      rw [List.drop_append_of_le_length (by simp)]
      congr 1
      rw [vals, ← List.map_drop, List.drop_left]
    have hend : (vals (l ++ xs) ++ rest).drop v.used = rest := by
      rw [List.drop_append_of_le_length (by simp at hu ⊢; omega)]
      rw [List.drop_of_length_le (by simp at hu ⊢; omega)]; rfl
    have htake : (vals (l ++ xs) ++ rest).take off = vals (l.take off) := by
      rw [List.take_append_of_le_length (by simp; omega), vals, ← List.map_take,
        List.take_append_of_le_length ho]
    have h1 : (vals (l.drop off ++ xs) ++ rest).take (v.used - off) = vals (l.drop off ++ xs) := by
      rw [List.take_append_of_le_length (by simp at hu ⊢; omega)]
      exact List.take_of_length_le (by simp at hu ⊢; omega)
    have h2 : (vals xs ++ rest).take (v.used - l.length) = vals xs := by
      rw [List.take_append_of_le_length (by simp at hu ⊢; omega)]
      exact List.take_of_length_le (by simp at hu ⊢; omega)
    have h3 : (vals (l.drop off ++ xs) ++ rest).take (l.length - off) = vals (l.drop off) := by
      rw [List.take_append_of_le_length (by simp), vals, ← List.map_take,
        List.take_append_of_le_length (by simp), List.take_of_length_le (by simp)]
    have hc2 : off ≤ l.length ∧ l.length ≤ v.used ∧ v.used ≤ (vals (l ++ xs) ++ rest).length ∧
        allVal (((vals (l ++ xs) ++ rest).drop off).take (v.used - off)) := by
      refine ⟨ho, by simp at hu; omega, by simp at hu ⊢; omega, ?_⟩
      rw [hdrop, h1]; exact allVal_vals _
    rw [if_pos hc2, hdrop, hmid, hend, htake, h2, h3]
    have hx : off + (v.used - l.length) = off + xs.length := by simp at hu; omega
    simp only [hx]
    refine ⟨_, rfl, .blk b rest hp hb ?_ ?_ ?_ hr, Frame.inPlace hf r.good hp _ rfl rfl⟩
    · simp [vals]
    · simp at hu ⊢; omega
    · simp at ha ⊢; omega

theorem insertOne_ok (r : Rep strict h v l) (hf : Fresh h) (hl : Lim W (l.length + 1)) {off : Nat}
    (ho : off ≤ l.length) (a : α) :
    ∃ h' v', insertOne W strict h v off a = .ok (h', v', off + 1) ∧
      Rep strict h' v' (l.take off ++ [a] ++ l.drop off) ∧ Frame h v h' v' := by
  obtain ⟨h1, v1, e1, r1, f1⟩ := pushBack_ok r hf hl a
  obtain ⟨h2, e2, r2, f2⟩ := rotateIn_ok r1 f1.fresh ho
  refine ⟨h2, v1, ?_, r2, f1.trans f2⟩
  simp [insertOne, r.used, ho, e1, e2, bind, Except.bind, pure, Except.pure]

theorem insertN_ok (r : Rep strict h v l) (hf : Fresh h) {n : Nat} (hl : Lim W (l.length + n))
    {off : Nat} (ho : off ≤ l.length) (a : α) :
    ∃ h' v', insertN W strict h v off n a = .ok (h', v', off + n) ∧
      Rep strict h' v' (l.take off ++ List.replicate n a ++ l.drop off) ∧ Frame h v h' v' := by
  obtain ⟨h1, v1, e1, r1, hc, hu, f1⟩ := reserve_ok r hf hl
  obtain ⟨h2, e2, r2, f2⟩ := constructFrom_ok r1 f1.fresh (List.replicate n a) (by simpa using hc)
  simp only [List.length_replicate] at r2 f2
  obtain ⟨h3, e3, r3, f3⟩ := rotateIn_ok r2 f2.fresh ho
  refine ⟨h3, { v1 with used := l.length + n }, ?_, r3, (f1.trans f2).trans f3⟩
  simp only [List.length_replicate] at e3
  have hu1 : v1.used = l.length := by rw [hu, r.used]
  rw [hu1] at e2
  simp only [insertN, r.used, ho, decide_true, require_true, hl.mod, e1, bind, Except.bind, pure,
    Except.pure, e2, hu1, e3]

theorem insertInput_ok (r : Rep strict h v l) (hf : Fresh h) {xs : List α}
    (hl : Lim W (l.length + xs.length)) {off : Nat} (ho : off ≤ l.length) :
    ∃ h' v', insertInput W strict h v off xs = .ok (h', v', off + xs.length) ∧
      Rep strict h' v' (l.take off ++ xs ++ l.drop off) ∧ Frame h v h' v' := by
  obtain ⟨h1, v1, e1, r1, f1⟩ := appendEach_ok xs r hf hl
  obtain ⟨h2, e2, r2, f2⟩ := rotateIn_ok r1 f1.fresh ho
  refine ⟨h2, v1, ?_, r2, f1.trans f2⟩
  simp [insertInput, r.used, ho, e1, e2, bind, Except.bind, pure, Except.pure]

/-- `set`: in strict mode only on an empty vector (otherwise live elements are overwritten). -/
theorem set_ok (r : Rep strict h v l) (hf : Fresh h) {xs : List α} (hl : Lim W xs.length)
    (hst : strict = true → l = []) :
    ∃ h' v', set W strict h v xs = .ok (h', v') ∧ Rep strict h' v' xs ∧ Frame h v h' v' := by
  obtain ⟨h1, v1, e1, r1, hc, hu, f1⟩ := reserve_ok r hf hl
  have hv : xs.length ≤ 2 ^ W - 1 := by have := Lim.pow _ _ hl; omega
  simp only [set, hv, decide_true, verify_true, e1, bind, Except.bind, pure, Except.pure]
  cases xs with
  | nil =>
    refine ⟨h1, { v1 with used := 0 }, rfl, ?_, f1.trans ?_⟩
    · cases r1 with
      | null hv hl => exact .null (by rw [hv]; rfl) rfl
      | blk b rest hp hb hs hu ha hr =>
        refine .blk b (vals l ++ rest) hp hb (by simpa using hs) rfl (by simp [ha]) ?_
        intro e s hs'
        rw [hst e] at hs'
        exact hr e s (by simpa using hs')
    · cases r1 with
      | null hv hl =>
        have : ({ v1 with used := 0 } : Vec) = v1 := by rw [hv]; rfl
        rw [this]; exact Frame.refl f1.fresh (Rep.null (strict := strict) hv hl).good
      | blk b rest hp hb hs hu ha hr =>
        have := Frame.inPlace (v' := { v1 with used := 0 }) f1.fresh f1.good hp (vals l ++ rest) rfl rfl
        rwa [setBlk_self _ hs] at this
  | cons a xs =>
    obtain ⟨b, rest, hp, hb, hs, hu1, ha, hr⟩ := r1.toBlk (by simp at hc; omega)
    simp only [constructFrom, base_ok hp, bind, Except.bind]
    have hsplit : vals l ++ rest = (vals l ++ rest).take (a :: xs).length ++
        (vals l ++ rest).drop (a :: xs).length := by rw [List.take_append_drop]
    have hlen : ((vals l ++ rest).take (a :: xs).length).length = (a :: xs).length := by
      rw [List.length_take]; simp only [List.length_append, List.length_map]; omega
    have hr' : strict = true → ∀ s ∈ vals l ++ rest, s = Slot.raw := by
      intro e s hs'
      rw [hst e] at hs'
      exact hr e s (by simpa using hs')
    rw [hsplit] at hr'
    obtain ⟨hr1, hr2⟩ := raw_append hr'
    rw [constructAll_ok (a :: xs) (i := 0) (p := []) (mid := (vals l ++ rest).take (a :: xs).length)
      (q := (vals l ++ rest).drop (a :: xs).length) rfl hlen hr1
      (by rw [hs, List.nil_append, ← hsplit])]
    refine ⟨_, _, rfl, .blk b _ hp hb (by rw [setBlk_blocks, if_pos rfl]; rfl) rfl ?_ hr2,
      f1.trans (Frame.inPlace f1.fresh f1.good hp _ rfl rfl)⟩
    simp only [List.length_drop, List.length_append, List.length_map]
    omega

/-- `resize`: in strict mode only growing (shrinking does not run destructors). -/
theorem resize_ok (r : Rep strict h v l) (hf : Fresh h) {n : Nat} (hl : Lim W n)
    (hst : strict = true → l.length ≤ n) (a : α) :
    ∃ h' v', resize W strict h v n a = .ok (h', v') ∧
      Rep strict h' v' (l.take n ++ List.replicate (n - l.length) a) ∧ Frame h v h' v' := by
  obtain ⟨h1, v1, e1, r1, hc, hu, f1⟩ := reserve_ok r hf hl
  have hu1 : v1.used = l.length := by rw [hu, r.used]
  simp only [resize, e1, bind, Except.bind, pure, Except.pure]
  by_cases hn : l.length ≤ n
  · obtain ⟨h2, e2, r2, f2⟩ := constructFrom_ok r1 f1.fresh (List.replicate (n - l.length) a)
      (by simp; omega)
    rw [show l.length + (List.replicate (n - l.length) a).length = n by simp; omega] at r2 f2
    rw [hu1] at e2
    rw [hu1, e2]
    refine ⟨h2, _, rfl, ?_, f1.trans f2⟩
    rw [List.take_of_length_le hn]; exact r2
  · have hs0 : strict = false := by
      cases strict with
      | false => rfl
      | true => exact absurd (hst rfl) hn
    rw [hu1, show n - l.length = 0 by omega, List.replicate_zero]
    obtain ⟨b, rest, hp, hb, hs, hu1, ha, hr⟩ := r1.toBlk (by omega)
    refine ⟨h1, { v1 with used := n }, rfl, ?_, f1.trans ?_⟩
    · refine .blk b (vals (l.drop n) ++ rest) hp hb ?_ ?_ ?_ (by intro e; rw [hs0] at e; cases e)
      · rw [hs, List.append_nil, ← List.append_assoc]
        simp only [vals]
        rw [← List.map_append, List.take_append_drop]
      · simp; omega
      · simp; omega
    · have := Frame.inPlace (v' := { v1 with used := n }) f1.fresh f1.good hp (vals l ++ rest) rfl rfl
      rwa [setBlk_self _ hs] at this

/-- Dropping the elements from `n` on after destroying them. -/
theorem dropLive_ok {b : Nat} {rest : List (Slot α)} (hf : Fresh h) (hp : v.ptr = some b) (hb : b < h.next)
    (hs : h.blocks b = some (vals l ++ rest)) (ha : v.alloc = l.length + rest.length)
    (hr : strict = true → ∀ s ∈ rest, s = Slot.raw) (keep : List α) (mid : List (Slot α))
    (hk : keep.length + mid.length = l.length) (hlive : ∀ s ∈ mid, s.isRaw = false) {H : Heap α}
    (hH : H = h.setBlk b (some (vals keep ++ (mid ++ rest)))) {lo : Nat} (hlo : lo = keep.length) :
    ∃ h', destroyLoop b lo mid.length H = .ok h' ∧
      Rep strict h' { v with used := keep.length } keep ∧ Frame h v h' { v with used := keep.length } := by
  have hg : Good h v := by intro c hc; rw [hp] at hc; cases hc; exact ⟨hb, by rw [hs]; simp⟩
  subst hH
  rw [destroyLoop_ok (p := vals keep) (q := rest) mid (by simp [hlo]) hlive
    (by rw [setBlk_blocks, if_pos rfl]) mid.length (Nat.le_refl _), setBlk_setBlk]
  refine ⟨_, rfl, .blk b (List.replicate mid.length .raw ++ rest) hp hb ?_ rfl ?_ ?_,
    Frame.inPlace hf hg hp _ rfl rfl⟩
  · simp
  · simp; omega
  · intro e s hs'
    rcases List.mem_append.1 hs' with h1 | h1
    · exact (List.mem_replicate.1 h1).2
    · exact hr e s h1

theorem vals_live (l : List α) : ∀ s ∈ vals l, s.isRaw = false := by
  intro s hs
  simp only [vals, List.mem_map] at hs
  obtain ⟨a, _, rfl⟩ := hs
  rfl

theorem clear_ok (r : Rep strict h v l) (hf : Fresh h) :
    ∃ h' v', clear h v = .ok (h', v') ∧ Rep strict h' v' [] ∧ Frame h v h' v' := by
  unfold clear
  split
  · next h0 =>
    have hu := r.used
    have : l = [] := List.length_eq_zero_iff.1 (by omega)
    subst this
    exact ⟨h, v, rfl, r, Frame.refl hf r.good⟩
  · next h0 =>
    obtain ⟨b, rest, hp, hb, hs, hu, ha, hr⟩ := r.toBlk (by omega)
    obtain ⟨h', e, r', f⟩ := dropLive_ok hf hp hb hs ha hr [] (vals l) (by simp) (vals_live l)
      (H := h) (by simp [setBlk_self _ hs]) (lo := 0) rfl
    refine ⟨h', _, ?_, r', f⟩
    simp only [List.length_map] at e
    simp [base_ok hp, hu, e, bind, Except.bind, pure, Except.pure]

theorem popBack_ok (r : Rep strict h v l) (hf : Fresh h) (hne : l ≠ []) :
    ∃ h' v', popBack h v = .ok (h', v') ∧ Rep strict h' v' l.dropLast ∧ Frame h v h' v' := by
  have hlen : 0 < l.length := List.length_pos_iff.2 hne
  obtain ⟨b, rest, hp, hb, hs, hu, ha, hr⟩ := r.toBlk (by rw [r.used]; omega)
  obtain ⟨h', e, r', f⟩ := dropLive_ok hf hp hb hs ha hr l.dropLast [.val (l.getLast hne)]
    (by simp; omega) (by simp [Slot.isRaw])
    (H := h) (by
      rw [setBlk_self]
      rw [hs]
      conv => lhs; rw [← List.dropLast_concat_getLast hne]
      simp only [List.map_append, List.append_assoc, List.map_cons, List.map_nil]) (lo := l.length - 1) (by simp)
  refine ⟨h', _, ?_, r', f⟩
  simp only [destroyLoop, List.length_singleton, bind, Except.bind, Nat.add_zero] at e
  have : ¬ v.used = 0 := by omega
  simp only [popBack, ne_eq, this, not_false_eq_true, decide_true, require_true, base_ok hp, bind,
    Except.bind, pure, Except.pure]
  rw [hu, e]
  simp

theorem swap_at {b : Nat} {p q : List (Slot α)} {x y : α}
    (e : h.blocks b = some (p ++ .val x :: .val y :: q)) {i : Nat} (hi : i = p.length) :
    swap h b i (i + 1) = .ok (h.setBlk b (some (p ++ .val y :: .val x :: q))) := by
  have e2 : h.blocks b = some ((p ++ [.val x]) ++ .val y :: q) := by rw [e]; simp
  unfold swap
  rw [read_at e hi, read_at e2 (by simp [hi])]
  simp only [bind, Except.bind]
  rw [put_at e hi]
  simp only []
  rw [put_at (p := p ++ [.val y]) (s := .val y) (q := q)
    (by rw [setBlk_blocks, if_pos rfl]; simp) (by simp [hi]), setBlk_setBlk]
  simp

theorem swapLoop_ok {b : Nat} {A : List α} {x : α} {B : List α} {rest : List (Slot α)}
    (hs : h.blocks b = some (vals (A ++ x :: B) ++ rest)) {pos : Nat} (hpos : pos = A.length) (n : Nat)
    (hn : n ≤ B.length) : swapLoop b pos n h =
      .ok (h.setBlk b (some (vals (A ++ (B.take n ++ x :: B.drop n)) ++ rest))) := by
  induction n with
  | zero => simp only [swapLoop, List.take_zero, List.drop_zero, List.nil_append]; rw [setBlk_self _ hs]
  | succ n ih =>
    have hlt : n < B.length := by omega
    simp only [swapLoop, ih (by omega), bind, Except.bind]
    rw [swap_at (p := vals (A ++ B.take n)) (x := x) (y := B[n]) (q := vals (B.drop (n + 1)) ++ rest)
      (by
        rw [setBlk_blocks, if_pos rfl, List.drop_eq_getElem_cons hlt]
        simp only [List.map_append, List.map_cons, List.append_assoc, List.cons_append])
      (by simp [hpos]; omega), setBlk_setBlk, List.take_succ_eq_append_getElem hlt]
    simp only [List.map_append, List.map_cons, List.map_nil, List.append_assoc, List.cons_append,
      List.nil_append]

theorem erase_ok (r : Rep strict h v l) (hf : Fresh h) {pos : Nat} (hpos : pos < l.length) :
    ∃ h' v', erase h v pos = .ok (h', v', pos) ∧ Rep strict h' v' (l.take pos ++ l.drop (pos + 1)) ∧
      Frame h v h' v' := by
  obtain ⟨b, rest, hp, hb, hs, hu, ha, hr⟩ := r.toBlk (by rw [r.used]; omega)
  have hl : l = l.take pos ++ l[pos] :: l.drop (pos + 1) := by
    rw [← List.drop_eq_getElem_cons hpos, List.take_append_drop]
  have hs' := hs
  rw [hl] at hs'
  have hsw := swapLoop_ok hs' (pos := pos) (by simp; omega) (l.length - 1 - pos) (by simp; omega)
  rw [List.take_of_length_le (l := l.drop (pos + 1)) (by simp; omega),
    List.drop_of_length_le (l := l.drop (pos + 1)) (by simp; omega)] at hsw
  obtain ⟨h', e, r', f⟩ := dropLive_ok hf hp hb hs ha hr (l.take pos ++ l.drop (pos + 1)) [.val l[pos]]
    (by simp; omega) (by simp [Slot.isRaw])
    (H := h.setBlk b (some (vals (l.take pos ++ (l.drop (pos + 1) ++ [l[pos]])) ++ rest)))
    (by simp only [List.map_append, List.map_cons, List.map_nil, List.append_assoc, List.cons_append,
          List.nil_append]) (lo := l.length - 1) (by simp; omega)
  have hlen : (l.take pos ++ l.drop (pos + 1)).length = l.length - 1 := by simp; omega
  rw [hlen] at r' f
  refine ⟨h', _, ?_, r', f⟩
  simp only [destroyLoop, List.length_singleton, bind, Except.bind, Nat.add_zero] at e
  simp only [erase, hu, hpos, decide_true, require_true, base_ok hp, bind, Except.bind, pure,
    Except.pure, hsw, e]

theorem moveDown_ok {b : Nat} {A B : List α} {M : List (Slot α)} {rest : List (Slot α)}
    (hlive : ∀ s ∈ M, s.isRaw = false) (hM : M ≠ [])
    (hs : h.blocks b = some (vals A ++ (M ++ (vals B ++ rest)))) {first last : Nat}
    (h1 : first = A.length) (h2 : last = A.length + M.length) (n : Nat) (hn : n ≤ B.length) :
    ∃ X : List (Slot α), X.length = M.length ∧ (∀ s ∈ X, s.isRaw = false) ∧
      moveDown b first last n h =
        .ok (h.setBlk b (some (vals (A ++ B.take n) ++ (X ++ (vals (B.drop n) ++ rest))))) := by
  induction n with
  | zero =>
    refine ⟨M, rfl, hlive, ?_⟩
    simp only [moveDown, List.take_zero, List.drop_zero, List.append_nil]
    rw [setBlk_self _ hs]
  | succ n ih =>
    have hlt : n < B.length := by omega
    obtain ⟨X, hX, hXl, e⟩ := ih (by omega)
    have hMl : 0 < M.length := List.length_pos_iff.2 hM
    cases X with
    | nil => simp at hX; omega
    | cons x X =>
      refine ⟨X ++ [.moved], by simp at hX ⊢; omega, ?_, ?_⟩
      · intro s hs'
        rcases List.mem_append.1 hs' with h | h
        · exact hXl s (List.mem_cons_of_mem _ h)
        · simp at h; rw [h]; rfl
      · simp only [moveDown, e, bind, Except.bind, moveAssign]
        rw [moveOut_at (p := vals (A ++ B.take n) ++ (x :: X)) (a := B[n])
          (q := vals (B.drop (n + 1)) ++ rest)
          (by
            rw [setBlk_blocks, if_pos rfl, List.drop_eq_getElem_cons hlt]
            simp only [List.map_append, List.map_cons, List.append_assoc, List.cons_append])
          (by simp at hX ⊢; omega)]
        simp only []
        rw [if_neg (by omega), assign_at (p := vals (A ++ B.take n)) (s := x)
          (q := X ++ (.moved :: (vals (B.drop (n + 1)) ++ rest)))
          (by
            rw [setBlk_blocks, if_pos rfl]
            simp only [List.append_assoc, List.cons_append])
          (by simp; omega) (hXl x List.mem_cons_self)]
        rw [setBlk_setBlk, setBlk_setBlk, List.take_succ_eq_append_getElem hlt]
        simp only [List.map_append, List.map_cons, List.map_nil, List.append_assoc, List.cons_append,
          List.nil_append]

theorem eraseRange_ok (r : Rep strict h v l) (hf : Fresh h) {i j : Nat} (hij : i ≤ j)
    (hj : j ≤ l.length) :
    ∃ h' v', eraseRange h v i j = .ok (h', v', l.length - (j - i)) ∧
      Rep strict h' v' (l.take i ++ l.drop j) ∧ Frame h v h' v' := by
  simp only [eraseRange, r.used, hij, hj, and_self, decide_true, require_true, bind, Except.bind, pure,
    Except.pure]
  split
  · next e =>
    subst e
    exact ⟨h, v, by simp, by simpa using r, Frame.refl hf r.good⟩
  · next hne =>
    obtain ⟨b, rest, hp, hb, hs, hu, ha, hr⟩ := r.toBlk (by rw [r.used]; omega)
    have hl : l = l.take i ++ ((l.drop i).take (j - i) ++ l.drop j) := by
      have : l.drop j = (l.drop i).drop (j - i) := by rw [List.drop_drop]; congr 1; omega
      rw [this, List.take_append_drop, List.take_append_drop]
    have hs' := hs
    rw [hl] at hs'
    simp only [vals, List.map_append, List.append_assoc] at hs'
    obtain ⟨X, hX, hXl, e⟩ := moveDown_ok (A := l.take i) (B := l.drop j)
      (M := vals ((l.drop i).take (j - i))) (vals_live _)
      (by intro e; have := congrArg List.length e; simp at this; omega) hs' (first := i) (last := j)
      (by simp; omega) (by simp; omega) (l.length - j) (by simp)
    simp only [vals, List.length_map, List.length_take, List.length_drop] at hX
    rw [List.take_of_length_le (l := l.drop j) (by simp),
      List.drop_of_length_le (l := l.drop j) (by simp), vals, vals, List.map_nil, List.nil_append] at e
    obtain ⟨h', e2, r', f⟩ := dropLive_ok hf hp hb hs ha hr (l.take i ++ l.drop j) X
      (by simp; omega) hXl (H := h.setBlk b (some (vals (l.take i ++ l.drop j) ++ (X ++ rest)))) rfl
      (lo := i + (l.length - j)) (by simp; omega)
    have hlen : (l.take i ++ l.drop j).length = l.length - (j - i) := by simp; omega
    rw [hlen] at r' f
    refine ⟨h', _, ?_, r', f⟩
    rw [show X.length = j - i by omega] at e2
    simp only [base_ok hp, e, e2]

/-! ### forward range insertion -/

/-- The hole while the tail is being shifted: moved-from slots followed by untouched capacity. -/
def hole (R : List (Slot α)) (c n : Nat) : List (Slot α) :=
  List.replicate (min n c) .moved ++ R.take (c - n)

theorem shiftTail_ok {b : Nat} {A T : List α} {R Q : List (Slot α)} (hc : 0 < R.length)
    (hr : strict = true → ∀ s ∈ R, s = Slot.raw)
    (hs : h.blocks b = some (vals (A ++ T) ++ (R ++ Q))) {used cnt : Nat}
    (hu : used = A.length + T.length) (hcnt : cnt = R.length) (n : Nat) (hn : n ≤ T.length) :
    shiftTail strict b used cnt n h = .ok (h.setBlk b (some (vals (A ++ T.take (T.length - n)) ++
      (hole R cnt n ++ (vals (T.drop (T.length - n)) ++ Q))))) := by
  induction n with
  | zero =>
    simp only [shiftTail, hole, Nat.zero_min, List.replicate_zero, Nat.sub_zero, List.nil_append]
    rw [List.take_of_length_le (l := T) (Nat.le_refl _), List.take_of_length_le (l := R) (by omega),
      List.drop_of_length_le (Nat.le_refl _), setBlk_self]
    rw [hs]; simp
  | succ n ih =>
    have hlt : T.length - (n + 1) < T.length := by omega
    simp only [shiftTail, ih (by omega), bind, Except.bind]
    have ht : T.take (T.length - n) = T.take (T.length - (n + 1)) ++ [T[T.length - (n + 1)]] := by
      rw [show T.length - n = T.length - (n + 1) + 1 by omega, List.take_succ_eq_append_getElem hlt]
    have hd : T.drop (T.length - (n + 1)) = T[T.length - (n + 1)] :: T.drop (T.length - n) := by
      rw [List.drop_eq_getElem_cons hlt]; congr 2; omega
    generalize T[T.length - (n + 1)] = x at ht hd
    -- the last slot of the hole
    have hhole : ∃ H s, hole R cnt n = H ++ [s] ∧ hole R cnt (n + 1) = .moved :: H ∧
        (n < cnt → strict = true → s = .raw) ∧ (cnt ≤ n → s = .moved) := by
      unfold hole
      by_cases hnc : n < cnt
      · have hlt2 : cnt - (n + 1) < R.length := by omega
        refine ⟨List.replicate n .moved ++ R.take (cnt - (n + 1)), R[cnt - (n + 1)], ?_, ?_, ?_, ?_⟩
        · rw [show cnt - n = cnt - (n + 1) + 1 by omega, List.take_succ_eq_append_getElem hlt2,
            Nat.min_eq_left (by omega), List.append_assoc]
        · rw [Nat.min_eq_left (by omega), List.replicate_succ]; rfl
        · intro _ e; exact hr e _ (List.getElem_mem _)
        · intro h; omega
      · refine ⟨List.replicate (cnt - 1) .moved, .moved, ?_, ?_, fun h => absurd h hnc, fun _ => rfl⟩
        · rw [Nat.min_eq_right (by omega), show cnt - n = 0 by omega, List.take_zero, List.append_nil,
            ← List.replicate_succ']
          congr 1; omega
        · rw [Nat.min_eq_right (by omega), show cnt - (n + 1) = 0 by omega, List.take_zero,
            List.append_nil, ← List.replicate_succ]
          congr 1; omega
    obtain ⟨H, s, hH1, hH2, hraw, hmov⟩ := hhole
    have hHlen : H.length + 1 = cnt := by
      have := congrArg List.length hH1
      simp only [hole, List.length_append, List.length_replicate, List.length_take, List.length_singleton] at this
      omega
    have hget : (h.setBlk b (some (vals (A ++ T.take (T.length - n)) ++
        (hole R cnt n ++ (vals (T.drop (T.length - n)) ++ Q))))).blocks b =
        some (vals (A ++ T.take (T.length - (n + 1))) ++
          .val x :: (H ++ [s] ++ (vals (T.drop (T.length - n)) ++ Q))) := by
      rw [setBlk_blocks, if_pos rfl, ht, hH1]
      simp only [List.map_append, List.map_cons, List.map_nil, List.append_assoc, List.cons_append,
        List.nil_append]
    have hfin : vals (A ++ T.take (T.length - (n + 1))) ++
          (hole R cnt (n + 1) ++ (vals (T.drop (T.length - (n + 1))) ++ Q)) =
        (vals (A ++ T.take (T.length - (n + 1))) ++ .moved :: H) ++
          .val x :: (vals (T.drop (T.length - n)) ++ Q) := by
      rw [hH2, hd]
      simp only [List.map_append, List.map_cons, List.map_nil, List.append_assoc, List.cons_append,
        List.nil_append]
    have hmid : ∀ (h2 : Heap α), h2.blocks b = some (vals (A ++ T.take (T.length - (n + 1))) ++
          .moved :: (H ++ [s] ++ (vals (T.drop (T.length - n)) ++ Q))) →
        h2.blocks b = some ((vals (A ++ T.take (T.length - (n + 1))) ++ .moved :: H) ++
          s :: (vals (T.drop (T.length - n)) ++ Q)) := by
      intro h2 e; rw [e]
      simp only [List.append_assoc, List.cons_append, List.nil_append]
    have hsrc : used - 1 - n = (vals (A ++ T.take (T.length - (n + 1)))).length := by
      simp; omega
    have hdst : used + cnt - 1 - n = (vals (A ++ T.take (T.length - (n + 1))) ++ .moved :: H).length := by
      simp; omega
    unfold shiftStep
    by_cases hnc : n < cnt
    · rw [if_pos (by omega), moveOut_at hget hsrc]
      simp only [bind, Except.bind]
      rw [construct_at (hmid _ (by rw [setBlk_blocks, if_pos rfl])) hdst (hraw hnc),
        setBlk_setBlk, setBlk_setBlk, hfin]
    · rw [if_neg (by omega)]
      unfold moveAssign
      rw [moveOut_at hget hsrc]
      simp only [bind, Except.bind]
      rw [if_neg (by omega), assign_at (hmid _ (by rw [setBlk_blocks, if_pos rfl])) hdst
        (by rw [hmov (by omega)]; rfl), setBlk_setBlk, setBlk_setBlk, hfin]

theorem writeNew_ok {b used : Nat} (xs : List α) {i : Nat} {h : Heap α} {p mid q : List (Slot α)}
    (hi : i = p.length) (hm : mid.length = xs.length)
    (hk : ∀ j s, mid[j]? = some s → (i + j < used → s.isRaw = false) ∧
      (used ≤ i + j → strict = true → s = .raw))
    (hs : h.blocks b = some (p ++ (mid ++ q))) :
    writeNew strict b used i xs h = .ok (h.setBlk b (some (p ++ (vals xs ++ q)))) := by
  induction xs generalizing i h p mid with
  | nil =>
    have : mid = [] := List.length_eq_zero_iff.1 (by simpa using hm)
    subst this
    simp only [writeNew, List.map_nil]
    rw [setBlk_self _ hs]
  | cons a xs ih =>
    cases mid with
    | nil => simp at hm
    | cons s mid =>
      have h0 := hk 0 s (by simp)
      have hstep : (if i ≥ used then h.construct strict b i a else h.assign b i a) =
          .ok (h.setBlk b (some (p ++ .val a :: (mid ++ q)))) := by
        by_cases hc : i ≥ used
        · rw [if_pos hc, construct_at (p := p) (s := s) (q := mid ++ q) (by rw [hs]; rfl) hi
            (fun e => h0.2 (by omega) e)]
        · rw [if_neg hc, assign_at (p := p) (s := s) (q := mid ++ q) (by rw [hs]; rfl) hi
            (h0.1 (by omega))]
      simp only [writeNew, hstep, bind, Except.bind]
      rw [ih (p := p ++ [.val a]) (mid := mid) (by simp [hi]) (by simpa using hm)
        (by
          intro j t ht
          have := hk (j + 1) t (by simpa using ht)
          rw [show i + (j + 1) = i + 1 + j by omega] at this
          exact this)
        (by rw [setBlk_blocks, if_pos rfl]; simp)]
      rw [setBlk_setBlk]
      simp

theorem insertRange_ok (r : Rep strict h v l) (hf : Fresh h) {xs : List α}
    (hl : Lim W (l.length + xs.length)) {off : Nat} (ho : off ≤ l.length)
    (hne : xs ≠ [] ∨ off = l.length) :
    ∃ h' v', insertRange W strict h v off xs = .ok (h', v', off) ∧
      Rep strict h' v' (l.take off ++ xs ++ l.drop off) ∧ Frame h v h' v' := by
  have hlx : Lim W xs.length := ⟨hl.std, by have := hl.le; omega⟩
  simp only [insertRange, r.used, ho, decide_true, require_true, bind, Except.bind, pure, Except.pure]
  by_cases h0 : l.length = 0
  · rw [if_pos h0]
    have hl0 : l = [] := List.length_eq_zero_iff.1 h0
    subst hl0
    obtain ⟨h1, v1, e1, r1, f1⟩ := set_ok r hf hlx (fun _ => rfl)
    rw [e1]
    have : off = 0 := by simpa using ho
    subst this
    exact ⟨h1, v1, rfl, by simpa using r1, f1⟩
  · rw [if_neg h0, hlx.mod, hl.mod]
    obtain ⟨h1, v1, e1, r1, hc, hu, f1⟩ := reserve_ok r hf hl
    rw [e1]
    simp only []
    obtain ⟨b, rest, hp, hb, hs, hu1, ha, hr⟩ := r1.toBlk (by rw [r1.used]; omega)
    simp only [base_ok hp, hu1]
    have hT : l = l.take off ++ l.drop off := by rw [List.take_append_drop]
    have hrest : rest = rest.take xs.length ++ rest.drop xs.length := by rw [List.take_append_drop]
    have hlen : (rest.take xs.length).length = xs.length := by rw [List.length_take]; omega
    have hr' := hr
    rw [hrest] at hr'
    obtain ⟨hr1, hr2⟩ := raw_append hr'
    have hlo : (l.drop off).length = l.length - off := by simp
    have hta : (l.take off).length = off := by rw [List.length_take]; omega
    by_cases hx : xs = []
    · subst hx
      have hoff : off = l.length := by rcases hne with h | h; exact absurd rfl h; exact h
      rw [hoff, Nat.sub_self]
      simp only [shiftTail, writeNew, List.length_nil, Nat.add_zero]
      have hm := hl.mod
      simp only [List.length_nil, Nat.add_zero] at hm
      rw [hm]
      have hv : ({ v1 with used := l.length } : Vec) = v1 := by
        cases v1; simp at hu1; simp [hu1]
      refine ⟨h1, v1, by rw [hv], ?_, f1⟩
      rw [List.take_length, List.drop_length, List.append_nil, List.append_nil]
      exact r1
    · have hs' := hs
      rw [hrest] at hs'
      rw [hT] at hs'
      have hxl : 0 < xs.length := List.length_pos_iff.2 hx
      have e2 := shiftTail_ok (strict := strict) (A := l.take off) (T := l.drop off)
        (R := rest.take xs.length) (Q := rest.drop xs.length) (by rw [hlen]; exact hxl) hr1 hs'
        (used := l.length) (cnt := xs.length) (by rw [hta, hlo]; omega) hlen.symm (l.length - off)
        (by rw [hlo]; exact Nat.le_refl _)
      rw [hlo, Nat.sub_self, List.take_zero, List.drop_zero, List.append_nil] at e2
      simp only [e2]
      have e3 := writeNew_ok (strict := strict) (b := b) (used := l.length) xs (i := off)
        (h := h1.setBlk b (some (vals (l.take off) ++ (hole (rest.take xs.length) xs.length (l.length - off) ++
          (vals (l.drop off) ++ rest.drop xs.length)))))
        (p := vals (l.take off)) (mid := hole (rest.take xs.length) xs.length (l.length - off))
        (q := vals (l.drop off) ++ rest.drop xs.length) (by simp; omega)
        (by simp only [hole, List.length_append, List.length_replicate, List.length_take]; omega)
        (by
          intro j s hj
          unfold hole at hj
          rw [List.getElem?_append] at hj
          simp only [List.length_replicate] at hj
          split at hj
          · next hlt =>
            rw [List.getElem?_replicate, if_pos hlt] at hj
            cases hj
            exact ⟨fun _ => rfl, fun h => by omega⟩
          · next hge =>
            have hmem := List.mem_of_getElem? hj
            have hjl : j - min (l.length - off) xs.length < xs.length - (l.length - off) := by
              have := (List.getElem?_eq_some_iff.1 hj).1
              rw [List.length_take] at this
              omega
            refine ⟨fun h => by omega, fun _ e => hr1 e s ?_⟩
            exact List.mem_of_mem_take hmem)
        (by rw [setBlk_blocks, if_pos rfl])
      simp only [e3, setBlk_setBlk]
      rw [hl.mod]
      refine ⟨_, _, rfl, .blk b (rest.drop xs.length) hp hb ?_ ?_ ?_ hr2,
        f1.trans (Frame.inPlace f1.fresh f1.good hp _ rfl rfl)⟩
      · rw [setBlk_blocks, if_pos rfl]; simp [vals]
      · simp; omega
      · simp; omega

/-! ### Destruction and observation -/

theorem deallocate_ok (r : Rep strict h v l) (hf : Fresh h) :
    ∃ h' v', deallocate strict h v = .ok (h', v') ∧ Frame h v h' Vec.empty := by
  unfold deallocate
  have hg := r.good
  split
  · next hc =>
    refine ⟨h, v, rfl, ?_⟩
    exact {
      good0 := hg
      good := by intro b hb; cases hb
      next_le := Nat.le_refl _
      fresh := hf
      other := fun _ _ _ => rfl
      ptr := Or.inr (Or.inl rfl)
      new := fun b hb hn => absurd (hf b hb) hn
      old := by
        intro b hb _
        have := (hg b hb).2
        rcases hc with hc | hc
        · simp [hc, this]
        · rw [hc] at hb; cases hb }
  · next hc =>
    simp only [not_or, Bool.not_eq_false] at hc
    obtain ⟨hself, hnn⟩ := hc
    cases r with
    | null hv _ => rw [hv] at hnn; exact absurd rfl hnn
    | blk b rest hp hb hs hu ha hr =>
      simp only [base_ok hp, bind, Except.bind, pure, Except.pure]
      rw [hu, destroyLoop_ok (lo := 0) (p := []) (q := rest) (vals l) rfl (vals_live l) (by rw [hs]; rfl)
        l.length (by simp)]
      simp only []
      rw [free_ok (by rw [setBlk_blocks, if_pos rfl]) (by
        intro e s hs'
        rw [List.drop_of_length_le (by simp)] at hs'
        simp only [List.nil_append] at hs'
        rcases List.mem_append.1 hs' with h1 | h1
        · exact (List.mem_replicate.1 h1).2
        · exact hr e s h1), setBlk_setBlk]
      refine ⟨_, _, rfl, ?_⟩
      exact {
        good0 := hg
        good := by intro c hc; cases hc
        next_le := Nat.le_refl _
        fresh := by
          intro c hc
          simp only [setBlk_next] at hc
          rw [setBlk_blocks, if_neg (by omega)]; exact hf c hc
        other := by
          intro c _ hc
          rw [setBlk_blocks, if_neg]
          intro e; rw [e] at hc; exact hc hp
        ptr := Or.inr (Or.inl rfl)
        new := by
          intro c hc hn
          rw [setBlk_blocks, if_neg (by omega)] at hn
          exact absurd (hf c hc) hn
        old := by
          intro c hc _
          rw [hp] at hc; cases hc
          simp [hself] }

theorem read_elem {b : Nat} {rest : List (Slot α)} (hs : h.blocks b = some (vals l ++ rest)) {i : Nat}
    (hi : i < l.length) : h.read b i = .ok l[i] := by
  have : vals l ++ rest = vals (l.take i) ++ .val l[i] :: (vals (l.drop (i + 1)) ++ rest) := by
    conv => lhs; rw [← List.take_append_drop i l, List.drop_eq_getElem_cons hi]
    simp only [List.map_append, List.map_cons, List.append_assoc, List.cons_append]
  exact read_at (by rw [hs, this]) (by simp; omega)

theorem values_ok {b : Nat} {rest : List (Slot α)} (hs : h.blocks b = some (vals l ++ rest)) (n : Nat)
    (hn : n ≤ l.length) : values h b n = .ok (l.take n) := by
  induction n with
  | zero => rfl
  | succ n ih =>
    simp only [values, ih (by omega), read_elem hs (show n < l.length by omega), bind, Except.bind, pure,
      Except.pure]
    rw [List.take_succ_eq_append_getElem (by omega)]

theorem toList_ok (r : Rep strict h v l) : toList h v = .ok l := by
  unfold toList
  split
  · next h0 =>
    have := r.used
    rw [List.length_eq_zero_iff.1 (show l.length = 0 by omega)]
  · next h0 =>
    obtain ⟨b, rest, hp, hb, hs, hu, ha, hr⟩ := r.toBlk (by omega)
    simp only [base_ok hp, bind, Except.bind, hu]
    rw [values_ok hs _ (Nat.le_refl _), List.take_length]

theorem index_ok (r : Rep strict h v l) {i : Nat} (hi : i < l.length) : index h v i = .ok l[i] := by
  obtain ⟨b, rest, hp, hb, hs, hu, ha, hr⟩ := r.toBlk (by rw [r.used]; omega)
  simp only [index, hu, hi, decide_true, require_true, base_ok hp, bind, Except.bind, read_elem hs hi]

theorem write_ok (r : Rep strict h v l) (hf : Fresh h) {i : Nat} (hi : i < l.length) (a : α) :
    ∃ h', write h v i a = .ok h' ∧ Rep strict h' v (l.set i a) ∧ Frame h v h' v := by
  obtain ⟨b, rest, hp, hb, hs, hu, ha, hr⟩ := r.toBlk (by rw [r.used]; omega)
  have : vals l ++ rest = vals (l.take i) ++ .val l[i] :: (vals (l.drop (i + 1)) ++ rest) := by
    conv => lhs; rw [← List.take_append_drop i l, List.drop_eq_getElem_cons hi]
    simp only [List.map_append, List.map_cons, List.append_assoc, List.cons_append]
  have hset : l.set i a = l.take i ++ a :: l.drop (i + 1) := List.set_eq_take_append_cons_drop .. |>.trans (by
    rw [if_pos hi])
  simp only [write, hu, hi, decide_true, require_true, base_ok hp, bind, Except.bind]
  rw [assign_at (p := vals (l.take i)) (s := .val l[i]) (q := vals (l.drop (i + 1)) ++ rest)
    (by rw [hs, this]) (by simp; omega) rfl]
  refine ⟨_, rfl, .blk b rest hp hb ?_ (by simp [hu]) (by simp [ha]) hr,
    Frame.inPlace hf r.good hp _ rfl rfl⟩
  rw [setBlk_blocks, if_pos rfl, hset]
  simp only [List.map_append, List.map_cons, List.append_assoc, List.cons_append]

end Cista.Vector

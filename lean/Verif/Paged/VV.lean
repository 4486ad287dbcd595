import Verif.Paged.Hist

/-!
# Histories of `paged_vecvec`
-/
set_option linter.unusedSimpArgs false

namespace Cista.Paged

variable {c : Cfg}

/-! ## Elements of fixed size -/

theorem flatten_len {E : Nat} : ∀ {xs : List (List Byte)}, (∀ x ∈ xs, x.length = E) → xs.flatten.length = xs.length * E
  | [], _ => by simp
  | x :: xs, h => by
    rw [List.flatten_cons, List.length_append, h x (by simp), flatten_len fun y hy => h y (by simp [hy]),
      List.length_cons, Nat.add_mul]
    omega

theorem flatten_get {E : Nat} : ∀ {xs : List (List Byte)} {j : Nat} {x : List Byte}, (∀ x ∈ xs, x.length = E) →
    xs[j]? = some x → ∀ t, t < E → xs.flatten[j * E + t]? = x[t]?
  | [], _, _, _, h, _, _ => by simp at h
  | y :: xs, 0, x, hE, h, t, ht => by
    simp at h; subst h
    rw [List.flatten_cons, List.getElem?_append_left (by rw [hE y (by simp)]; omega)]
    simp
  | y :: xs, j + 1, x, hE, h, t, ht => by
    have hy := hE y (by simp)
    rw [List.flatten_cons, List.getElem?_append_right (by rw [hy, Nat.add_mul]; omega), hy,
      show (j + 1) * E + t - E = j * E + t by rw [Nat.add_mul]; omega]
    exact flatten_get (fun z hz => hE z (by simp [hz])) (by simpa using h) t ht

theorem elems_flatten {E : Nat} : ∀ {xs : List (List Byte)}, (∀ x ∈ xs, x.length = E) →
    elems E xs.length xs.flatten = xs
  | [], _ => rfl
  | x :: xs, h => by
    have hx := h x (by simp)
    simp only [List.length_cons, elems, List.flatten_cons]
    rw [← hx, List.take_left, List.drop_left, hx, elems_flatten fun y hy => h y (by simp [hy])]

theorem flatten_set {E : Nat} : ∀ {xs : List (List Byte)} {j : Nat} {x : List Byte}, (∀ x ∈ xs, x.length = E) →
    x.length = E → j < xs.length → (xs.set j x).flatten = MM.blit xs.flatten (j * E) x
  | [], _, _, _, _, h => by simp at h
  | y :: xs, 0, x, hE, hx, _ => by
    have hy := hE y (by simp)
    simp only [List.set_cons_zero, List.flatten_cons, MM.blit, Nat.zero_mul, List.take_zero, List.nil_append,
      Nat.zero_add]
    rw [hx, ← hy, List.drop_left]
  | y :: xs, j + 1, x, hE, hx, hj => by
    have hy := hE y (by simp)
    have ih := flatten_set (xs := xs) (j := j) (x := x) (fun z hz => hE z (by simp [hz])) hx (by simpa using hj)
    simp only [List.set_cons_succ, List.flatten_cons, ih, MM.blit]
    have h1 : (j + 1) * E = y.length + j * E := by rw [hy, Nat.add_mul]; omega
    rw [h1, List.take_append, List.take_of_length_le (l := y) (by omega), Nat.add_sub_cancel_left, Nat.add_assoc,
      List.drop_append, List.drop_of_length_le (by omega : y.length ≤ y.length + (j * E + x.length)),
      Nat.add_sub_cancel_left]
    simp [List.append_assoc]

/-! ## Relation to a list of lists -/

/-- Bucket `xs` is stored in page `q`. -/
def BOk (c : Cfg) (d : List Byte) (q : Page) (xs : List (List Byte)) : Prop :=
  q.size = xs.length ∧ (∀ x ∈ xs, x.length = c.E) ∧ Holds c d q xs.flatten

structure VRel (c : Cfg) (v : PV) (L : List (List (List Byte))) : Prop where
  inv : ∃ fl, Inv c v.paged v.idx fl
  len : v.idx.length = L.length
  agree : ∀ (i : Nat) (q : Page) (xs : List (List Byte)), v.idx[i]? = some q → L[i]? = some xs → BOk c v.paged.data q xs

theorem Holds.frame {d d' : List Byte} {q : Page} {bs : List Byte} (h : Holds c d q bs) (hl : bs.length ≤ q.cap * c.E)
    (hf : ∀ k, q.start * c.E ≤ k → k < (q.start + q.cap) * c.E → d'[k]? = d[k]?) : Holds c d' q bs := by
  intro k hk
  rw [hf _ (by omega) (by rw [Nat.add_mul]; omega)]
  exact h k hk

theorem BOk.frame {d d' : List Byte} {q : Page} {xs : List (List Byte)} (h : BOk c d q xs) (hq : PageOk c q)
    (hf : ∀ k, q.start * c.E ≤ k → k < (q.start + q.cap) * c.E → d'[k]? = d[k]?) : BOk c d' q xs := by
  refine ⟨h.1, h.2.1, h.2.2.frame ?_ hf⟩
  rw [flatten_len h.2.1, ← h.1]
  exact mul_le hq.1

theorem VRel.page {v : PV} {L : List (List (List Byte))} (h : VRel c v L) {i : Nat} {xs : List (List Byte)}
    (hi : L[i]? = some xs) : ∃ q, v.idx[i]? = some q ∧ v.page i = .ok q ∧ BOk c v.paged.data q xs := by
  have hil : i < v.idx.length := by rw [h.len]; exact (List.getElem?_eq_some_iff.1 hi).1
  have hq : v.idx[i]? = some v.idx[i] := List.getElem?_eq_getElem hil
  exact ⟨_, hq, by simp only [PV.page, hq], h.agree i _ xs hq hi⟩

/-- Bytes of bucket `i` rewritten in place. -/
theorem VRel.write (ok : c.Ok) {v : PV} {L : List (List (List Byte))} (h : VRel c v L) {i : Nat} {q : Page}
    (hq : v.idx[i]? = some q) {d : List Byte} (hl : d.length = v.paged.data.length)
    (hd : ∀ k, ¬ (q.start * c.E ≤ k ∧ k < (q.start + q.cap) * c.E) → d[k]? = v.paged.data[k]?)
    {ys : List (List Byte)} (hy : BOk c d q ys) : VRel c { v with paged := { v.paged with data := d } } (L.set i ys) := by
  obtain ⟨fl, hI⟩ := h.inv
  have hil : i < v.idx.length := (List.getElem?_eq_some_iff.1 hq).1
  refine ⟨⟨fl, hI.write ok (List.mem_of_getElem? hq) hl hd⟩, by simp [h.len], ?_⟩
  intro j r xs h1 h2
  dsimp only at h1 ⊢
  by_cases hij : j = i
  · subst hij
    rw [hq] at h1; injection h1 with h1; subst h1
    rw [List.getElem?_set_self (by rw [← h.len]; exact hil)] at h2
    injection h2 with h2; subst h2
    exact hy
  · rw [List.getElem?_set_ne (fun h => hij h.symm)] at h2
    have hd' := (hI.perm (getElem?_perm hq)).disj_of (mem_eraseIdx_of h1 hij)
    exact (h.agree j r xs h1 h2).frame (hI.pages r (List.mem_of_getElem? h1))
      fun k hk1 hk2 => hd k (not_in_of_disj hd' hk1 hk2)

/-- Content of the stored bucket as read back. -/
theorem BOk.contents {p : Paged} {q : Page} {xs : List (List Byte)} (h : BOk c p.data q xs) (hq : PageOk c q)
    (hin : (q.start + q.cap) * c.E ≤ p.data.length) : p.contents c q = .ok xs.flatten := by
  have h1 : q.size * c.E ≤ q.cap * c.E := mul_le hq.1
  rw [Nat.add_mul] at hin
  have hfl := flatten_len h.2.1
  have e : decide (q.start * c.E + q.size * c.E ≤ p.data.length) = true := decide_eq_true (by omega)
  unfold Paged.contents load
  simp only [e, require_true, ok_bind, pure_ok]
  congr 1
  apply List.ext_getElem?
  intro k
  rw [List.getElem?_take]
  by_cases hk : k < q.size * c.E
  · rw [if_pos hk, List.getElem?_drop]
    exact h.2.2 k (by rw [hfl, ← h.1]; exact hk)
  · rw [if_neg hk, List.getElem?_eq_none]
    rw [hfl, ← h.1]; omega

theorem VRel.bucket {v : PV} {L : List (List (List Byte))} (h : VRel c v L) {i : Nat} {xs : List (List Byte)}
    (hi : L[i]? = some xs) : v.bucket c i = .ok xs := by
  obtain ⟨fl, hI⟩ := h.inv
  obtain ⟨q, hq, hp, hB⟩ := h.page hi
  have hm := List.mem_of_getElem? hq
  unfold PV.bucket
  rw [hp, ok_bind, hB.contents (hI.pages q hm) (hI.inrange hm), ok_bind, pure_ok, hB.1, elems_flatten hB.2.1]

theorem BOk.store_elem {d : List Byte} {q : Page} {xs : List (List Byte)} (h : BOk c d q xs) (hq : PageOk c q)
    (hin : (q.start + q.cap) * c.E ≤ d.length) {j : Nat} (hj : j < xs.length) {x : List Byte} (hx : x.length = c.E) :
    (q.start + j) * c.E + x.length ≤ d.length ∧ BOk c (MM.blit d ((q.start + j) * c.E) x) q (xs.set j x) ∧
    (∀ k, ¬ (q.start * c.E ≤ k ∧ k < (q.start + q.cap) * c.E) → (MM.blit d ((q.start + j) * c.E) x)[k]? = d[k]?) := by
  have hfl := flatten_len h.2.1
  have hjc : j + 1 ≤ q.cap := by have := h.1; have := hq.1; omega
  have h2 := mul_le (E := c.E) hjc
  rw [Nat.add_mul] at h2 hin
  have hfit : (q.start + j) * c.E + x.length ≤ d.length := by rw [Nat.add_mul]; omega
  have hjx : j + 1 ≤ xs.length := hj
  have h3 := mul_le (E := c.E) hjx
  rw [Nat.add_mul] at h3
  have hfitx : j * c.E + x.length ≤ xs.flatten.length := by rw [hfl]; omega
  refine ⟨hfit, ⟨by simp [h.1], ?_, ?_⟩, ?_⟩
  · intro y hy
    rcases List.mem_or_eq_of_mem_set hy with hy | rfl
    · exact h.2.1 y hy
    · exact hx
  · rw [flatten_set h.2.1 hx hj]
    intro k hk
    rw [MM.blit_length _ _ _ hfitx] at hk
    rw [MM.blit_get _ _ _ hfit, MM.blit_get _ _ _ hfitx, Nat.add_mul]
    by_cases hc : j * c.E ≤ k ∧ k < j * c.E + x.length
    · rw [if_pos hc, if_pos (by omega)]
      congr 1; omega
    · rw [if_neg hc, if_neg (by omega)]
      exact h.2.2 k hk
  · intro k hk
    rw [MM.blit_get _ _ _ hfit, if_neg]
    intro hc
    apply hk
    rw [Nat.add_mul] at hc ⊢
    omega

theorem set_ok (ok : c.Ok) {v : PV} {L : List (List (List Byte))} (h : VRel c v L) {i j : Nat} {xs : List (List Byte)}
    (hi : L[i]? = some xs) (hj : j < xs.length) {x : List Byte} (hx : x.length = c.E) :
    ∃ v', v.set c i j x = .ok v' ∧ VRel c v' (L.set i (xs.set j x)) ∧ v'.paged.size c = v.paged.size c ∧
      v'.idx = v.idx := by
  obtain ⟨fl, hI⟩ := h.inv
  obtain ⟨q, hq, hp, hB⟩ := h.page hi
  have hm := List.mem_of_getElem? hq
  obtain ⟨h1, h2, h3⟩ := hB.store_elem (hI.pages q hm) (hI.inrange hm) hj hx
  have hbl := MM.blit_length _ _ _ h1
  refine ⟨_, ?_, h.write ok hq hbl h3 h2, ?_, rfl⟩
  · have e1 : decide (j < q.size) = true := decide_eq_true (by rw [hB.1]; exact hj)
    have e2 : decide ((q.start + j) * c.E + x.length ≤ v.paged.data.length) = true := decide_eq_true h1
    unfold PV.set
    simp only [hp, e1, store, e2, require_true, ok_bind, pure_ok]
  · simp only [Paged.size, hbl]

/-- Page `q'` now stores bucket `i`. -/
theorem VRel.repage {v : PV} {L : List (List (List Byte))} (h : VRel c v L) {i : Nat} {q q' : Page} {p' : Paged}
    {fl' : List (List Nat)} {ys : List (List Byte)} (hq : v.idx[i]? = some q)
    (hI' : Inv c p' (q' :: v.idx.eraseIdx i) fl')
    (hfr : ∀ r ∈ v.idx.eraseIdx i, ∀ k, r.start * c.E ≤ k → k < (r.start + r.cap) * c.E → p'.data[k]? = v.paged.data[k]?)
    (hB : BOk c p'.data q' ys) : VRel c ⟨p', v.idx.set i q'⟩ (L.set i ys) := by
  obtain ⟨fl, hI⟩ := h.inv
  have hil : i < v.idx.length := (List.getElem?_eq_some_iff.1 hq).1
  refine ⟨⟨fl', hI'.perm (set_perm hil q').symm⟩, by simp [h.len], ?_⟩
  intro j r xs h1 h2
  dsimp only at h1 ⊢
  by_cases hij : j = i
  · subst hij
    rw [List.getElem?_set_self hil] at h1
    rw [List.getElem?_set_self (by rw [← h.len]; exact hil)] at h2
    injection h1 with h1; injection h2 with h2
    subst h1; subst h2; exact hB
  · rw [List.getElem?_set_ne (fun h => hij h.symm)] at h1 h2
    exact (h.agree j r xs h1 h2).frame (hI.pages r (List.mem_of_getElem? h1)) (hfr r (mem_eraseIdx_of h1 hij))

/-- Making room for one more element: the bucket gets some unspecified element `y` at its end. -/
theorem grow_ok (ok : c.Ok) {v : PV} {L : List (List (List Byte))} (h : VRel c v L) {i : Nat} {xs : List (List Byte)}
    (hi : L[i]? = some xs) (hn : xs.length < 2 ^ c.M)
    (hb : v.paged.size c + 2 * max (2 ^ c.m) (xs.length + 1) ≤ c.sentinel) :
    ∃ v' y, v.grow c i = .ok v' ∧ y.length = c.E ∧ VRel c v' (L.set i (xs ++ [y])) ∧
      v'.paged.size c ≤ v.paged.size c + 2 * max (2 ^ c.m) (xs.length + 1) := by
  obtain ⟨fl, hI⟩ := h.inv
  obtain ⟨q, hq, hp, hB⟩ := h.page hi
  have hM : 2 ^ c.M ≤ 2 ^ 15 := Nat.pow_le_pow_right (by omega) ok.M15
  have hpm := getElem?_perm hq
  have hcl := newCap_le ok (n := xs.length + 1) (by omega)
  have hmod : (q.size + 1) % 2 ^ 16 = xs.length + 1 := by rw [hB.1]; exact Nat.mod_eq_of_lt (by omega)
  obtain ⟨q', p', fl', e, hs, hle, hI', hsz, hfr, hct⟩ := resize_ok ok (hI.perm hpm) (n := xs.length + 1) (by omega) (by omega)
  have hin := hI'.inrange (q := q') (by simp)
  have hcap := mul_le (E := c.E) hle
  rw [Nat.add_mul] at hin hcap
  have hyl : ((p'.data.drop ((q'.start + xs.length) * c.E)).take c.E).length = c.E := by
    simp only [List.length_take, List.length_drop]
    rw [Nat.add_mul]; omega
  have hfl := flatten_len hB.2.1
  refine ⟨⟨p', v.idx.set i q'⟩, (p'.data.drop ((q'.start + xs.length) * c.E)).take c.E, ?_, hyl, ?_, ?_⟩
  · unfold PV.grow
    simp only [hp, ok_bind, hmod, e, pure_ok]
  · apply h.repage hq hI' hfr
    refine ⟨by rw [hs]; simp, ?_, ?_⟩
    · intro z hz
      rcases List.mem_append.1 hz with hz | hz
      · exact hB.2.1 z hz
      · simp only [List.mem_singleton] at hz
        rw [hz]; exact hyl
    · intro k hk
      simp only [List.flatten_append, List.flatten_cons, List.flatten_nil, List.append_nil, List.length_append, hyl] at hk ⊢
      by_cases hk1 : k < xs.flatten.length
      · rw [List.getElem?_append_left hk1, hct k (by rw [hB.1]; omega) (by rw [Nat.add_mul]; omega)]
        exact hB.2.2 k hk1
      · rw [List.getElem?_append_right (by omega), List.getElem?_take, if_pos (by omega), List.getElem?_drop]
        congr 1
        rw [Nat.add_mul]; omega
  · dsimp only; omega

theorem pushBack_ok (ok : c.Ok) {v : PV} {L : List (List (List Byte))} (h : VRel c v L) {i : Nat} {xs : List (List Byte)}
    (hi : L[i]? = some xs) (hn : xs.length < 2 ^ c.M)
    (hb : v.paged.size c + 2 * max (2 ^ c.m) (xs.length + 1) ≤ c.sentinel) {x : List Byte} (hx : x.length = c.E) :
    ∃ v', v.pushBack c i x = .ok v' ∧ VRel c v' (L.set i (xs ++ [x])) ∧
      v'.paged.size c ≤ v.paged.size c + 2 * max (2 ^ c.m) (xs.length + 1) := by
  obtain ⟨v1, y, e1, hy, h1, hs1⟩ := grow_ok ok h hi hn hb
  have hiL : i < L.length := (List.getElem?_eq_some_iff.1 hi).1
  have hi1 : (L.set i (xs ++ [y]))[i]? = some (xs ++ [y]) := List.getElem?_set_self hiL
  obtain ⟨q, hq, hp, hB⟩ := h1.page hi1
  have hqs : q.size - 1 = xs.length := by rw [hB.1]; simp
  obtain ⟨v2, e2, h2, hs2, _⟩ := set_ok ok h1 hi1 (j := xs.length) (by simp) hx
  refine ⟨v2, ?_, ?_, by omega⟩
  · unfold PV.pushBack
    simp only [e1, ok_bind, hp, hqs, e2]
  · rw [List.set_set] at h2
    have : (xs ++ [y]).set xs.length x = xs ++ [x] := by simp
    rwa [this] at h2

theorem rotate_insert {α : Type} (xs : List α) (x : α) (j : Nat) (hj : j ≤ xs.length) :
    rotate j xs.length (xs ++ [x]) = xs.take j ++ [x] ++ xs.drop j := by
  unfold rotate
  rw [List.take_append_of_le_length hj, List.drop_left, List.take_left]

theorem bucketInsert_ok (ok : c.Ok) {v : PV} {L : List (List (List Byte))} (h : VRel c v L) {i j : Nat}
    {xs : List (List Byte)} (hi : L[i]? = some xs) (hj : j ≤ xs.length) (hn : xs.length < 2 ^ c.M)
    (hb : v.paged.size c + 2 * max (2 ^ c.m) (xs.length + 1) ≤ c.sentinel) {x : List Byte} (hx : x.length = c.E) :
    ∃ v', v.bucketInsert c i j x = .ok v' ∧ VRel c v' (L.set i (xs.take j ++ [x] ++ xs.drop j)) ∧
      v'.paged.size c ≤ v.paged.size c + 2 * max (2 ^ c.m) (xs.length + 1) := by
  obtain ⟨q0, hq0, hp0, hB0⟩ := h.page hi
  obtain ⟨v1, e1, h1, hs1⟩ := pushBack_ok ok h hi hn hb hx
  have hiL : i < L.length := (List.getElem?_eq_some_iff.1 hi).1
  have hi1 : (L.set i (xs ++ [x]))[i]? = some (xs ++ [x]) := List.getElem?_set_self hiL
  obtain ⟨q, hq, hp, hB⟩ := h1.page hi1
  obtain ⟨fl, hI⟩ := h1.inv
  have hm := List.mem_of_getElem? hq
  have hin := hI.inrange hm
  have hpo := hI.pages q hm
  have hbk := h1.bucket hi1
  have hyE : ∀ z ∈ xs.take j ++ [x] ++ xs.drop j, z.length = c.E := by
    intro z hz
    simp only [List.mem_append, List.mem_singleton] at hz
    rcases hz with (hz | hz) | hz
    · exact hB0.2.1 z (List.mem_of_mem_take hz)
    · rw [hz]; exact hx
    · exact hB0.2.1 z (List.mem_of_mem_drop hz)
  have hyl : (xs.take j ++ [x] ++ xs.drop j).length = xs.length + 1 := by simp; omega
  have hfl := flatten_len hyE
  rw [hyl] at hfl
  have hqs : q.size = xs.length + 1 := by rw [hB.1]; simp
  have hcap := mul_le (E := c.E) hpo.1
  rw [hqs] at hcap
  have hin' := hin
  rw [Nat.add_mul] at hin'
  have hfit : q.start * c.E + (xs.take j ++ [x] ++ xs.drop j).flatten.length ≤ v1.paged.data.length := by
    rw [hfl]; omega
  have hbl := MM.blit_length _ _ _ hfit
  have hw := h1.write ok hq hbl (ys := xs.take j ++ [x] ++ xs.drop j) (by
    intro k hk
    rw [MM.blit_get _ _ _ hfit, if_neg]
    rw [hfl]
    intro hc; apply hk; rw [Nat.add_mul]; omega) (by
    refine ⟨by rw [hqs, hyl], hyE, ?_⟩
    intro k hk
    rw [MM.blit_get _ _ _ hfit, if_pos (by omega), Nat.add_sub_cancel_left])
  rw [List.set_set] at hw
  refine ⟨_, ?_, hw, ?_⟩
  · have er : decide (j ≤ xs.length) = true := decide_eq_true hj
    have es : decide (q.start * c.E + (xs.take j ++ [x] ++ xs.drop j).flatten.length ≤ v1.paged.data.length) = true :=
      decide_eq_true hfit
    unfold PV.bucketInsert
    simp only [hp0, ok_bind, er, require_true, e1, hp, hbk, hB0.1, rotate_insert xs x j hj, store, es, pure_ok]
  · simp only [Paged.size, hbl] at hs1 ⊢
    exact hs1

/-- `create_page` and copying the new bucket in. -/
theorem createFill_ok (ok : c.Ok) {v : PV} {L : List (List (List Byte))} (h : VRel c v L) {xs : List (List Byte)}
    (hE : ∀ x ∈ xs, x.length = c.E) (hn : xs.length ≤ 2 ^ c.M)
    (hb : v.paged.size c + 2 * max (2 ^ c.m) xs.length ≤ c.sentinel) :
    ∃ q p1 p2 fl, v.paged.create c xs.length = .ok (q, p1) ∧ p1.copyIn c q xs.flatten = .ok p2 ∧
      Inv c p2 (q :: v.idx) fl ∧ BOk c p2.data q xs ∧ p2.size c ≤ v.paged.size c + 2 * max (2 ^ c.m) xs.length ∧
      ∀ r ∈ v.idx, ∀ k, r.start * c.E ≤ k → k < (r.start + r.cap) * c.E → p2.data[k]? = v.paged.data[k]? := by
  obtain ⟨fl, hI⟩ := h.inv
  have hM : 2 ^ c.M ≤ 2 ^ 15 := Nat.pow_le_pow_right (by omega) ok.M15
  have hcl := newCap_le ok (n := xs.length) (by omega)
  obtain ⟨q, p1, fl1, e, hs, hc, hle, hI1, hsz, hl, hfr⟩ := create_ok ok hI hn (by omega)
  have hin := hI1.inrange (q := q) (by simp)
  have hcap := mul_le (E := c.E) hle
  have hfl := flatten_len hE
  have hin' := hin
  rw [Nat.add_mul] at hin'
  have hfit : q.start * c.E + xs.flatten.length ≤ p1.data.length := by rw [hfl]; omega
  have hold : ∀ r ∈ v.idx, ∀ k, r.start * c.E ≤ k → k < (r.start + r.cap) * c.E → p1.data[k]? = v.paged.data[k]? :=
    fun r hr k _ hk => hfr k (by have := hI.inrange hr; omega)
  by_cases h0 : xs.flatten.length = 0
  · refine ⟨q, p1, p1, fl1, e, by simp only [Paged.copyIn, h0, if_true], hI1, ⟨hs, hE, ?_⟩, by omega, hold⟩
    intro k hk; omega
  · have hbl := MM.blit_length _ _ _ hfit
    have hfr2 : ∀ k, ¬ (q.start * c.E ≤ k ∧ k < (q.start + q.cap) * c.E) →
        (MM.blit p1.data (q.start * c.E) xs.flatten)[k]? = p1.data[k]? := by
      intro k hk
      rw [MM.blit_get _ _ _ hfit, if_neg]
      intro hc; apply hk; rw [Nat.add_mul]; omega
    refine ⟨q, p1, { p1 with data := MM.blit p1.data (q.start * c.E) xs.flatten }, fl1, e, ?_,
      hI1.write ok (by simp) hbl hfr2, ⟨hs, hE, ?_⟩, ?_, ?_⟩
    · have es : decide (q.start * c.E + xs.flatten.length ≤ p1.data.length) = true := decide_eq_true hfit
      unfold Paged.copyIn
      simp only [h0, if_false, store, es, require_true, ok_bind, pure_ok]
    · intro k hk
      dsimp only
      rw [MM.blit_get _ _ _ hfit, if_pos (by omega), Nat.add_sub_cancel_left]
    · simp only [Paged.size, hbl] at hsz ⊢; omega
    · intro r hr k hk1 hk2
      dsimp only
      rw [hfr2 k (not_in_of_disj (hI1.disj_of hr) hk1 hk2), hold r hr k hk1 hk2]

theorem insertIdx_perm {α : Type} : ∀ {l : List α} {k : Nat} (x : α), k ≤ l.length → (l.insertIdx k x).Perm (x :: l)
  | l, 0, x, _ => by simp
  | [], k + 1, x, h => by simp at h
  | a :: l, k + 1, x, h => by
    rw [List.insertIdx_succ_cons]
    exact ((insertIdx_perm x (by simpa using h)).cons a).trans (List.Perm.swap x a l)

theorem insert_ok (ok : c.Ok) {v : PV} {L : List (List (List Byte))} (h : VRel c v L) {xs : List (List Byte)} {k : Nat}
    (hk : k ≤ L.length) (hE : ∀ x ∈ xs, x.length = c.E) (hn : xs.length ≤ 2 ^ c.M)
    (hb : v.paged.size c + 2 * max (2 ^ c.m) xs.length ≤ c.sentinel) :
    ∃ v', v.insert c k xs = .ok v' ∧ VRel c v' (L.insertIdx k xs) ∧
      v'.paged.size c ≤ v.paged.size c + 2 * max (2 ^ c.m) xs.length := by
  obtain ⟨fl, hI⟩ := h.inv
  have hM : 2 ^ c.M ≤ 2 ^ 15 := Nat.pow_le_pow_right (by omega) ok.M15
  have hmod : xs.length % 2 ^ 16 = xs.length := Nat.mod_eq_of_lt (by omega)
  obtain ⟨q, p1, p2, fl2, e1, e2, hI2, hB, hsz, hfr⟩ := createFill_ok ok h hE hn hb
  have hki : k ≤ v.idx.length := by rw [h.len]; exact hk
  refine ⟨⟨p2, v.idx.insertIdx k q⟩, ?_, ⟨⟨fl2, hI2.perm (insertIdx_perm q hki).symm⟩, ?_, ?_⟩, hsz⟩
  · have er : decide (k ≤ v.idx.length) = true := decide_eq_true hki
    unfold PV.insert
    simp only [hmod, e1, e2, ok_bind, er, require_true, pure_ok]
  · simp only [List.length_insertIdx_of_le_length hki, List.length_insertIdx_of_le_length hk, h.len]
  · intro j r ys h1 h2
    dsimp only at h1 ⊢
    have old : ∀ j', v.idx[j']? = some r → L[j']? = some ys → BOk c p2.data r ys := fun j' h1 h2 =>
      (h.agree j' r ys h1 h2).frame (hI.pages r (List.mem_of_getElem? h1)) (hfr r (List.mem_of_getElem? h1))
    rcases Nat.lt_trichotomy j k with hjk | rfl | hjk
    · rw [List.getElem?_insertIdx_of_lt hjk] at h1 h2
      exact old j h1 h2
    · rw [List.getElem?_insertIdx_self, if_pos hki] at h1
      rw [List.getElem?_insertIdx_self, if_pos hk] at h2
      injection h1 with h1; injection h2 with h2
      subst h1; subst h2; exact hB
    · rw [List.getElem?_insertIdx_of_gt hjk] at h1 h2
      exact old (j - 1) h1 h2

theorem insertIdx_length {α : Type} (l : List α) (x : α) : l.insertIdx l.length x = l ++ [x] := by
  induction l with
  | nil => simp
  | cons a l ih => simp [List.insertIdx_succ_cons, ih]

theorem emplaceBack_ok (ok : c.Ok) {v : PV} {L : List (List (List Byte))} (h : VRel c v L) {xs : List (List Byte)}
    (hE : ∀ x ∈ xs, x.length = c.E) (hn : xs.length ≤ 2 ^ c.M)
    (hb : v.paged.size c + 2 * max (2 ^ c.m) xs.length ≤ c.sentinel) :
    ∃ v', v.emplaceBack c xs = .ok v' ∧ VRel c v' (L ++ [xs]) ∧
      v'.paged.size c ≤ v.paged.size c + 2 * max (2 ^ c.m) xs.length := by
  obtain ⟨v', e, h', hs⟩ := insert_ok ok h (k := L.length) (Nat.le_refl _) hE hn hb
  refine ⟨v', ?_, by rwa [insertIdx_length] at h', hs⟩
  unfold PV.insert at e
  unfold PV.emplaceBack
  cases h1 : v.paged.create c (xs.length % 2 ^ 16) with
  | error x => rw [h1] at e; simp only [error_bind] at e; cases e
  | ok r =>
    obtain ⟨q, p1⟩ := r
    rw [h1] at e
    simp only [ok_bind] at e ⊢
    cases h2 : p1.copyIn c q xs.flatten with
    | error x => rw [h2] at e; simp only [error_bind] at e; cases e
    | ok p2 =>
      rw [h2] at e
      have er : decide (v.idx.length ≤ v.idx.length) = true := decide_eq_true (Nat.le_refl _)
      simp only [ok_bind, pure_ok, ← h.len, insertIdx_length] at e ⊢
      rw [er, require_true, ok_bind] at e
      exact e

theorem freeAll_ok (ok : c.Ok) : ∀ (qs rest : List Page) {p : Paged} {fl : List (List Nat)}, Inv c p (qs ++ rest) fl →
    ∃ p' fl', freeAll c qs p = .ok p' ∧ Inv c p' rest fl' ∧ p'.data.length = p.data.length ∧
      ∀ r ∈ rest, ∀ k, r.start * c.E ≤ k → k < (r.start + r.cap) * c.E → p'.data[k]? = p.data[k]?
  | [], rest, p, fl, h => ⟨p, fl, rfl, h, rfl, fun _ _ _ _ _ => rfl⟩
  | q :: qs, rest, p, fl, h => by
    obtain ⟨p1, fl1, e1, h1, hl1, hf1⟩ := free_ok ok h
    obtain ⟨p2, fl2, e2, h2, hl2, hf2⟩ := freeAll_ok ok qs rest h1
    refine ⟨p2, fl2, by simp only [freeAll, e1, ok_bind, e2], h2, by omega, ?_⟩
    intro r hr k hk1 hk2
    rw [hf2 r hr k hk1 hk2, hf1 k (not_in_of_disj (h.disj_of (List.mem_append_right _ hr)) hk1 hk2)]

theorem addNulls {p : Paged} {l : List Page} {fl : List (List Nat)} (h : Inv c p l fl) :
    ∀ n, Inv c p (l ++ List.replicate n Page.null) fl
  | 0 => by simpa using h
  | n + 1 => by
    rw [List.replicate_succ]
    exact (addNulls h n).addNull.perm List.perm_middle.symm

theorem resizeV_ok (ok : c.Ok) {v : PV} {L : List (List (List Byte))} (h : VRel c v L) (n : Nat) :
    ∃ v', v.resize c n = .ok v' ∧ VRel c v' (L.take n ++ List.replicate (n - L.length) []) ∧
      v'.paged.size c = v.paged.size c := by
  obtain ⟨fl, hI⟩ := h.inv
  have hpm : v.idx.Perm (v.idx.drop n ++ v.idx.take n) := by
    have : (v.idx.take n ++ v.idx.drop n).Perm (v.idx.drop n ++ v.idx.take n) := List.perm_append_comm
    rwa [List.take_append_drop] at this
  obtain ⟨p', fl', e, hI', hl, hfr⟩ := freeAll_ok ok (v.idx.drop n) (v.idx.take n) (hI.perm hpm)
  refine ⟨⟨p', v.idx.take n ++ List.replicate (n - v.idx.length) Page.null⟩, ?_,
    ⟨⟨fl', addNulls hI' _⟩, by simp [h.len], ?_⟩, by simp only [Paged.size, hl]⟩
  · unfold PV.resize
    simp only [e, ok_bind, pure_ok]
  · intro j r ys h1 h2
    dsimp only at h1 ⊢
    by_cases hj : j < min n v.idx.length
    · rw [List.getElem?_append_left (by simpa using hj)] at h1
      rw [List.getElem?_append_left (by rw [List.length_take, ← h.len]; exact hj)] at h2
      have hr := List.mem_of_getElem? h1
      rw [List.getElem?_take, if_pos (by omega)] at h1 h2
      exact (h.agree j r ys h1 h2).frame (hI.pages r (List.mem_of_getElem? h1)) (hfr r hr)
    · rw [List.getElem?_append_right (by rw [List.length_take]; omega), List.getElem?_replicate] at h1
      rw [List.getElem?_append_right (by rw [List.length_take, ← h.len]; omega), List.getElem?_replicate] at h2
      split at h1
      · split at h2
        · injection h1 with h1; injection h2 with h2
          subst h1; subst h2
          exact ⟨rfl, by simp, fun k hk => by simp at hk⟩
        · simp at h2
      · simp at h1

/-! ## Specification: a list of lists of elements -/

inductive VOp where
  | emplaceBack (xs : List (List Byte))
  | emplaceBackEmpty
  | insert (k : Nat) (xs : List (List Byte))
  | push (i : Nat) (x : List Byte)
  | bucketInsert (i j : Nat) (x : List Byte)
  | set (i j : Nat) (x : List Byte)
  | resize (n : Nat)
  | clear

def VOp.exec (c : Cfg) (v : PV) : VOp → Res PV
  | .emplaceBack xs => v.emplaceBack c xs
  | .emplaceBackEmpty => v.emplaceBackEmpty c
  | .insert k xs => v.insert c k xs
  | .push i x => v.pushBack c i x
  | .bucketInsert i j x => v.bucketInsert c i j x
  | .set i j x => v.set c i j x
  | .resize n => v.resize c n
  | .clear => .ok (v.clear c)

/-- The same operation on a list of lists. -/
def VOp.spec (L : List (List (List Byte))) : VOp → List (List (List Byte))
  | .emplaceBack xs => L ++ [xs]
  | .emplaceBackEmpty => L ++ [[]]
  | .insert k xs => L.insertIdx k xs
  | .push i x => L.modify i fun xs => xs ++ [x]
  | .bucketInsert i j x => L.modify i fun xs => xs.take j ++ [x] ++ xs.drop j
  | .set i j x => L.modify i fun xs => xs.set j x
  | .resize n => L.take n ++ List.replicate (n - L.length) []
  | .clear => []

/-- Caller obligations: positions exist, elements have `E` bytes, buckets hold at most `MaxPageSize`. -/
def VOp.Pre (c : Cfg) (L : List (List (List Byte))) : VOp → Prop
  | .emplaceBack xs => (∀ x ∈ xs, x.length = c.E) ∧ xs.length ≤ 2 ^ c.M
  | .emplaceBackEmpty => True
  | .insert k xs => k ≤ L.length ∧ (∀ x ∈ xs, x.length = c.E) ∧ xs.length ≤ 2 ^ c.M
  | .push i x => ∃ xs, L[i]? = some xs ∧ xs.length < 2 ^ c.M ∧ x.length = c.E
  | .bucketInsert i j x => ∃ xs, L[i]? = some xs ∧ j ≤ xs.length ∧ xs.length < 2 ^ c.M ∧ x.length = c.E
  | .set i j x => ∃ xs, L[i]? = some xs ∧ j < xs.length ∧ x.length = c.E
  | .resize _ => True
  | .clear => True

/-- Elements of storage an operation can need at most. -/
def VOp.cost (c : Cfg) (L : List (List (List Byte))) : VOp → Nat
  | .emplaceBack xs => 2 * max (2 ^ c.m) xs.length
  | .emplaceBackEmpty => 2 * 2 ^ c.m
  | .insert _ xs => 2 * max (2 ^ c.m) xs.length
  | .push i _ => 2 * max (2 ^ c.m) ((L.getD i []).length + 1)
  | .bucketInsert i _ _ => 2 * max (2 ^ c.m) ((L.getD i []).length + 1)
  | _ => 0

def vrun (c : Cfg) : PV → List VOp → Res PV
  | v, [] => .ok v
  | v, op :: ops => do
    let v ← op.exec c v
    vrun c v ops

def vspec : List (List (List Byte)) → List VOp → List (List (List Byte))
  | L, [] => L
  | L, op :: ops => vspec (op.spec L) ops

def VAllowed (c : Cfg) : List (List (List Byte)) → List VOp → Prop
  | _, [] => True
  | L, op :: ops => op.Pre c L ∧ VAllowed c (op.spec L) ops

def vcost (c : Cfg) : List (List (List Byte)) → List VOp → Nat
  | _, [] => 0
  | L, op :: ops => op.cost c L + vcost c (op.spec L) ops

theorem modify_eq_set {α : Type _} {l : List α} {i : Nat} {x : α} (h : l[i]? = some x) (f : α → α) :
    l.modify i f = l.set i (f x) := by
  have hi := (List.getElem?_eq_some_iff.1 h).1
  apply List.ext_getElem?
  intro j
  by_cases hj : j = i
  · subst hj; rw [modify_get h, List.getElem?_set_self hi]
  · rw [modify_get_ne hj, List.getElem?_set_ne (fun h => hj h.symm)]

theorem vexec_ok (ok : c.Ok) {v : PV} {L : List (List (List Byte))} (h : VRel c v L) {op : VOp} (hp : op.Pre c L)
    (hb : v.paged.size c + op.cost c L ≤ c.sentinel) :
    ∃ v', op.exec c v = .ok v' ∧ VRel c v' (op.spec L) ∧ v'.paged.size c ≤ v.paged.size c + op.cost c L := by
  cases op with
  | emplaceBack xs => exact emplaceBack_ok ok h hp.1 hp.2 hb
  | emplaceBackEmpty =>
    obtain ⟨v', e, h', hs⟩ := emplaceBack_ok ok h (xs := []) (by simp) (Nat.zero_le _)
      (by simpa [VOp.cost] using hb)
    refine ⟨v', ?_, h', by simpa [VOp.cost] using hs⟩
    rw [← e]
    unfold VOp.exec PV.emplaceBackEmpty PV.emplaceBack
    simp only [List.length_nil, Nat.zero_mod, List.flatten_nil, Paged.copyIn, if_true, ok_bind]
  | insert k xs => exact insert_ok ok h hp.1 hp.2.1 hp.2.2 hb
  | push i x =>
    obtain ⟨xs, hi, hn, hx⟩ := hp
    have hg : L.getD i [] = xs := by simp [List.getD, hi]
    simp only [VOp.cost, VOp.spec, hg, modify_eq_set hi] at hb ⊢
    exact pushBack_ok ok h hi hn hb hx
  | bucketInsert i j x =>
    obtain ⟨xs, hi, hj, hn, hx⟩ := hp
    have hg : L.getD i [] = xs := by simp [List.getD, hi]
    simp only [VOp.cost, VOp.spec, hg, modify_eq_set hi] at hb ⊢
    exact bucketInsert_ok ok h hi hj hn hb hx
  | set i j x =>
    obtain ⟨xs, hi, hj, hx⟩ := hp
    simp only [VOp.spec, modify_eq_set hi]
    obtain ⟨v', e, h', hs, _⟩ := set_ok ok h hi hj hx
    exact ⟨v', e, h', by omega⟩
  | resize n =>
    obtain ⟨v', e, h', hs⟩ := resizeV_ok ok h n
    exact ⟨v', e, h', by omega⟩
  | clear =>
    obtain ⟨fl, hI⟩ := h.inv
    refine ⟨v.clear c, rfl, ⟨⟨List.replicate (c.M - c.m + 1) [], ?_⟩, rfl, by simp [PV.clear]⟩, ?_⟩
    · have : v.paged.clear c = Paged.empty c := by
        simp only [Paged.clear, Paged.empty, List.map_const', hI.frl]
      simp only [PV.clear, this]
      exact Inv.empty c
    · simp [Paged.size, Paged.clear, PV.clear]

theorem vrun_ok (ok : c.Ok) : ∀ (ops : List VOp) {v : PV} {L : List (List (List Byte))}, VRel c v L →
    VAllowed c L ops → v.paged.size c + vcost c L ops ≤ c.sentinel →
    ∃ v', vrun c v ops = .ok v' ∧ VRel c v' (vspec L ops)
  | [], v, L, h, _, _ => ⟨v, rfl, h⟩
  | op :: ops, v, L, h, ha, hb => by
    simp only [vcost] at hb
    obtain ⟨v1, e1, h1, hs1⟩ := vexec_ok ok h ha.1 (by omega)
    obtain ⟨v2, e2, h2⟩ := vrun_ok ok ops h1 ha.2 (by omega)
    exact ⟨v2, by simp only [vrun, e1, ok_bind, e2], h2⟩

theorem vrel_empty (c : Cfg) : VRel c (PV.empty c) [] := ⟨⟨_, Inv.empty c⟩, rfl, by simp⟩

end Cista.Paged

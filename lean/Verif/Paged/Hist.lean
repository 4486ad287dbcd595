import Verif.Paged.Lemmas

/-!
# Histories of `paged`
-/
set_option linter.unusedSimpArgs false

namespace Cista.Paged

variable {c : Cfg}

/-- The bytes of `bs` are stored from the first element of page `q` on. -/
def Holds (c : Cfg) (d : List Byte) (q : Page) (bs : List Byte) : Prop :=
  ∀ k, k < bs.length → d[q.start * c.E + k]? = bs[k]?

theorem Inv.disj_of {p : Paged} {q : Page} {live : List Page} {fl : List (List Nat)} (h : Inv c p (q :: live) fl)
    {r : Page} (hr : r ∈ live) : disj q.blk r.blk := by
  have := h.pw
  simp only [List.map_cons, List.cons_append, List.pairwise_cons] at this
  exact this.1 _ (List.mem_append_left _ (List.mem_map_of_mem hr))

theorem not_in_of_disj {q r : Page} (h : disj q.blk r.blk) {E k : Nat} (h1 : r.start * E ≤ k)
    (h2 : k < (r.start + r.cap) * E) : ¬ (q.start * E ≤ k ∧ k < (q.start + q.cap) * E) := by
  rcases h with h | h
  · have := mul_le (E := E) h
    simp only [Page.blk] at this
    omega
  · have := mul_le (E := E) h
    simp only [Page.blk] at this
    omega

theorem newCap_le (ok : c.Ok) {n : Nat} (hn : n ≤ 2 ^ 15) : newCap c n ≤ 2 * max (2 ^ c.m) n := by
  obtain ⟨k, h1, h2, h3, h4, h5⟩ := newCap_spec ok hn
  rw [h3]
  by_cases hk : k = c.m
  · subst hk; omega
  · obtain ⟨j, rfl⟩ : ∃ j, k = j + 1 := ⟨k - 1, by omega⟩
    have : ¬ n ≤ 2 ^ j := fun h => by have := h5 j (by omega) h; omega
    rw [Nat.pow_succ]; omega

theorem Inv.inrange {p : Paged} {live : List Page} {fl : List (List Nat)} (h : Inv c p live fl) {q : Page}
    (hq : q ∈ live) : (q.start + q.cap) * c.E ≤ p.data.length := by
  rw [h.len]
  exact mul_le (h.inr q.blk (List.mem_append_left _ (List.mem_map_of_mem hq)))

/-- `resize_page`: the elements are kept, other pages are not touched. -/
theorem resize_ok {p : Paged} {q : Page} {live : List Page} {fl : List (List Nat)} (ok : c.Ok)
    (h : Inv c p (q :: live) fl) {n : Nat} (hn : n ≤ 2 ^ c.M) (hb : p.size c + newCap c n ≤ c.sentinel) :
    ∃ q' p' fl', p.resize c q n = .ok (q', p') ∧ q'.size = n ∧ n ≤ q'.cap ∧ Inv c p' (q' :: live) fl' ∧
      p'.size c ≤ p.size c + newCap c n ∧
      (∀ r ∈ live, ∀ k, r.start * c.E ≤ k → k < (r.start + r.cap) * c.E → p'.data[k]? = p.data[k]?) ∧
      (∀ k, k < q.size * c.E → k < n * c.E → p'.data[q'.start * c.E + k]? = p.data[q.start * c.E + k]?) := by
  by_cases hle : n ≤ q.cap
  · refine ⟨⟨n, q.cap, q.start⟩, p, fl, by simp [Paged.resize, hle], rfl, hle, ?_, Nat.le_add_right _ _,
      fun _ _ _ _ _ => rfl, fun _ _ _ => rfl⟩
    refine { h with pages := ?_ }
    intro r hr
    rcases List.mem_cons.1 hr with rfl | hr
    · exact ⟨hle, (h.pages q (by simp)).2⟩
    · exact h.pages r (List.mem_cons_of_mem _ hr)
  · obtain ⟨q', p1, fl1, e1, hs, hc, hnc, hI, hsz, hl1, hfr⟩ := create_ok ok h hn hb
    have hqs := (h.pages q (by simp)).1
    have hqr := h.inrange (q := q) (by simp)
    have hqr' := hI.inrange (q := q') (by simp)
    have hd := hI.disj_of (r := q) (by simp)
    have hm1 : q.size * c.E ≤ q.cap * c.E := mul_le hqs
    have hm2 : q.size * c.E ≤ q'.cap * c.E := mul_le (by omega)
    rw [Nat.add_mul] at hqr hqr'
    -- copy
    have hcp : ∃ p2, p1.copy c q' q = .ok p2 ∧ p2.free = p1.free ∧ p2.data.length = p1.data.length ∧
        (∀ k, ¬ (q'.start * c.E ≤ k ∧ k < (q'.start + q'.cap) * c.E) → p2.data[k]? = p1.data[k]?) ∧
        (∀ k, k < q.size * c.E → p2.data[q'.start * c.E + k]? = p1.data[q.start * c.E + k]?) := by
      by_cases h0 : q.size * c.E = 0
      · refine ⟨p1, by simp [Paged.copy, h0], rfl, rfl, fun _ _ => rfl, fun k hk => by omega⟩
      · have hbl : ((p1.data.drop (q.start * c.E)).take (q.size * c.E)).length = q.size * c.E := by
          simp; omega
        have hfit : q'.start * c.E + ((p1.data.drop (q.start * c.E)).take (q.size * c.E)).length ≤ p1.data.length := by
          rw [hbl]; omega
        have hov : (q.start * c.E + q.size * c.E ≤ q'.start * c.E ∨ q'.start * c.E + q.size * c.E ≤ q.start * c.E) := by
          rcases hd with hd | hd
          · have := mul_le (E := c.E) hd
            simp only [Page.blk, Nat.add_mul] at this; omega
          · have := mul_le (E := c.E) hd
            simp only [Page.blk, Nat.add_mul] at this; omega
        refine ⟨{ p1 with data := MM.blit p1.data (q'.start * c.E) ((p1.data.drop (q.start * c.E)).take (q.size * c.E)) },
          ?_, rfl, MM.blit_length _ _ _ hfit, ?_, ?_⟩
        · have e2 : decide (q.start * c.E + q.size * c.E ≤ p1.data.length) = true := decide_eq_true (by omega)
          have e3 : decide (q'.start * c.E + ((p1.data.drop (q.start * c.E)).take (q.size * c.E)).length ≤ p1.data.length) = true :=
            decide_eq_true hfit
          have e4 : (decide (q.start * c.E + q.size * c.E ≤ q'.start * c.E) ||
              decide (q'.start * c.E + q.size * c.E ≤ q.start * c.E)) = true := by
            simpa using hov
          unfold Paged.copy
          simp only [h0, if_false, load, store, e2, e3, e4, require_true, ok_bind, pure_ok]
        · intro k hk
          dsimp only
          rw [MM.blit_get _ _ _ hfit, if_neg]
          rw [hbl]
          intro hc; apply hk; rw [Nat.add_mul]; omega
        · intro k hk
          dsimp only
          rw [MM.blit_get _ _ _ hfit, if_pos (by rw [hbl]; omega), Nat.add_sub_cancel_left, List.getElem?_take,
            if_pos hk, List.getElem?_drop]
    obtain ⟨p2, e2, hf2, hl2, hfr2, hct2⟩ := hcp
    have hI2 : Inv c p2 (q' :: q :: live) fl1 := by
      have := hI.write ok (q := q') (by simp) hl2 hfr2
      rw [← hf2] at this
      exact this
    obtain ⟨p3, fl3, e3, hI3, hl3, hfr3⟩ := free_ok ok (hI2.perm (List.Perm.swap q q' live))
    refine ⟨q', p3, fl3, ?_, hs, hnc, hI3, ?_, ?_, ?_⟩
    · simp only [Paged.resize, hle, if_false, e1, e2, e3, ok_bind, pure_ok]
    · simp only [Paged.size, hl3, hl2] at hsz ⊢; exact hsz
    · intro r hr k hk1 hk2
      have hin := h.inrange (q := r) (by simp [hr])
      rw [hfr3 k (not_in_of_disj (h.disj_of hr) hk1 hk2), hfr2 k (not_in_of_disj (hI.disj_of (by simp [hr])) hk1 hk2),
        hfr k (by omega)]
    · intro k hk hkn
      have hk' : q'.start * c.E + k < (q'.start + q'.cap) * c.E := by rw [Nat.add_mul]; omega
      rw [hfr3 _ (not_in_of_disj (disj_symm hd) (by omega) hk'), hct2 k hk, hfr _ (by omega)]

theorem resize_exn {p : Paged} (ok : c.Ok) (hf : p.free.length = c.M - c.m + 1) {q : Page} (hq : PageOk c q) {n : Nat}
    (h1 : 2 ^ c.M < n) (h2 : n < 2 ^ 16) : p.resize c q n = .error .exn := by
  have hcap : q.cap ≤ 2 ^ c.M := by
    rcases hq.2 with h | ⟨k, _, hk, h⟩
    · rw [h]; exact Nat.zero_le _
    · rw [h]; exact Nat.pow_le_pow_right (by omega) hk
  unfold Paged.resize
  rw [if_neg (by omega), create_exn ok hf h1 h2]
  rfl

/-! ## Specification: pages are independent byte arrays with partly unspecified content -/

/-- Abstract pages: the bytes of `size` elements, `none` = unspecified. -/
abbrev Spec := List (List (Option Byte))

/-- Calls on the allocator, pages are numbered by their position among the live pages; `write` is the owner
of page `i` storing bytes through the page's pointer. -/
inductive Op where
  | create (n : Nat)
  | resize (i n : Nat)
  | free (i : Nat)
  | write (i off : Nat) (bs : List Byte)
  | clear

/-- Effect on the abstract pages (elements of `E` bytes). -/
def Op.spec (E : Nat) (s : Spec) : Op → Spec
  | .create n => s ++ [List.replicate (n * E) none]
  | .resize i n => s.modify i fun b => b.take (n * E) ++ List.replicate (n * E - b.length) none
  | .free i => s.eraseIdx i
  | .write i off bs => s.modify i fun b => b.take off ++ bs.map some ++ b.drop (off + bs.length)
  | .clear => []

/-- Caller obligations. -/
def Op.Pre (c : Cfg) (s : Spec) : Op → Prop
  | .create n => n ≤ 2 ^ c.M
  | .resize i n => i < s.length ∧ n ≤ 2 ^ c.M
  | .free i => i < s.length
  | .write i off bs => ∃ b, s[i]? = some b ∧ off + bs.length ≤ b.length
  | .clear => True

/-- Elements of storage one call can need at most. -/
def Op.cost (c : Cfg) : Op → Nat
  | .create n => 2 * max (2 ^ c.m) n
  | .resize _ n => 2 * max (2 ^ c.m) n
  | _ => 0

/-- The allocator and the pages handed out. -/
structure State where
  p : Paged
  live : List Page

/-- Execute one call. -/
def Op.exec (c : Cfg) (s : State) : Op → Res State
  | .create n => do
    let (q, p) ← s.p.create c n
    return ⟨p, s.live ++ [q]⟩
  | .resize i n =>
    match s.live[i]? with
    | none => .error .ub
    | some q => do
      let (q', p) ← s.p.resize c q n
      return ⟨p, s.live.set i q'⟩
  | .free i =>
    match s.live[i]? with
    | none => .error .ub
    | some q => do
      let p ← s.p.freePage c q
      return ⟨p, s.live.eraseIdx i⟩
  | .write i off bs =>
    match s.live[i]? with
    | none => .error .ub
    | some q => do
      let d ← store s.p.data (q.start * c.E + off) bs
      return ⟨{ s.p with data := d }, s.live⟩
  | .clear => .ok ⟨s.p.clear c, []⟩

def run (c : Cfg) : State → List Op → Res State
  | s, [] => .ok s
  | s, op :: ops => do
    let s ← op.exec c s
    run c s ops

def specRun (c : Cfg) : Spec → List Op → Spec
  | s, [] => s
  | s, op :: ops => specRun c (op.spec c.E s) ops

/-- Every call meets its obligation in the abstract state it is made in. -/
def Allowed (c : Cfg) : Spec → List Op → Prop
  | _, [] => True
  | s, op :: ops => op.Pre c s ∧ Allowed c (op.spec c.E s) ops

/-- Storage a history can need at most. -/
def totalCost (c : Cfg) (ops : List Op) : Nat := (ops.map (Op.cost c)).sum

/-- The page stores the specified bytes. -/
def Agrees (c : Cfg) (d : List Byte) (q : Page) (b : List (Option Byte)) : Prop :=
  b.length = q.size * c.E ∧ ∀ (k : Nat) (x : Byte), b[k]? = some (some x) → d[q.start * c.E + k]? = some x

/-- All pages agree with the abstract pages. -/
structure Rel (c : Cfg) (st : State) (s : Spec) : Prop where
  inv : ∃ fl, Inv c st.p st.live fl
  len : st.live.length = s.length
  agree : ∀ (i : Nat) (q : Page) (b : List (Option Byte)), st.live[i]? = some q → s[i]? = some b → Agrees c st.p.data q b

theorem Agrees.lt {d : List Byte} {q : Page} {b : List (Option Byte)} (h : Agrees c d q b) (hq : PageOk c q) {k : Nat}
    {x : Byte} (hk : b[k]? = some (some x)) : q.start * c.E + k < (q.start + q.cap) * c.E := by
  have h1 := (List.getElem?_eq_some_iff.1 hk).1
  have h2 : q.size * c.E ≤ q.cap * c.E := mul_le hq.1
  rw [h.1] at h1
  rw [Nat.add_mul]; omega

theorem Agrees.frame {d d' : List Byte} {q : Page} {b : List (Option Byte)} (h : Agrees c d q b) (hq : PageOk c q)
    (hf : ∀ k, q.start * c.E ≤ k → k < (q.start + q.cap) * c.E → d'[k]? = d[k]?) : Agrees c d' q b :=
  ⟨h.1, fun k x hk => by rw [hf _ (by omega) (h.lt hq hk)]; exact h.2 k x hk⟩

theorem getElem?_perm {α : Type _} : ∀ {l : List α} {i : Nat} {x : α}, l[i]? = some x → l.Perm (x :: l.eraseIdx i)
  | [], _, _, h => by simp at h
  | a :: l, 0, x, h => by simp at h; subst h; simp
  | a :: l, i + 1, x, h => by
    have h' : l[i]? = some x := by simpa using h
    simp only [List.eraseIdx_cons_succ]
    exact ((getElem?_perm h').cons a).trans (List.Perm.swap x a _)

theorem set_perm {α : Type _} {l : List α} {i : Nat} (h : i < l.length) (x : α) :
    (l.set i x).Perm (x :: l.eraseIdx i) := by
  have := getElem?_perm (l := l.set i x) (i := i) (x := x) (List.getElem?_set_self h)
  rwa [List.eraseIdx_set_eq] at this

theorem modify_get {α : Type _} {l : List α} {i : Nat} {x : α} (h : l[i]? = some x) (f : α → α) :
    (l.modify i f)[i]? = some (f x) := by
  simp [List.getElem?_modify, h]

theorem modify_get_ne {α : Type _} {l : List α} {i j : Nat} (h : j ≠ i) (f : α → α) :
    (l.modify i f)[j]? = l[j]? := by
  have : ¬ i = j := fun e => h e.symm
  simp [List.getElem?_modify, this]

theorem mem_eraseIdx_of {α : Type _} {l : List α} {i j : Nat} {x : α} (h : l[j]? = some x) (hij : j ≠ i) :
    x ∈ l.eraseIdx i := List.mem_eraseIdx_iff_getElem?.2 ⟨j, hij, h⟩

theorem exec_ok (ok : c.Ok) {st : State} {s : Spec} (h : Rel c st s) {op : Op} (hp : op.Pre c s)
    (hb : st.p.size c + op.cost c ≤ c.sentinel) :
    ∃ st', op.exec c st = .ok st' ∧ Rel c st' (op.spec c.E s) ∧ st'.p.size c ≤ st.p.size c + op.cost c := by
  obtain ⟨fl, hI⟩ := h.inv
  have h15 : ∀ n, n ≤ 2 ^ c.M → n ≤ 2 ^ 15 := fun n hn => Nat.le_trans hn (Nat.pow_le_pow_right (by omega) ok.M15)
  cases op with
  | create n =>
    have hn : n ≤ 2 ^ c.M := hp
    have hnc := newCap_le ok (h15 n hn)
    simp only [Op.cost] at hb
    obtain ⟨q, p', fl', e, hs, hc, hle, hI', hsz, hl, hfr⟩ := create_ok ok hI hn (by omega)
    refine ⟨⟨p', st.live ++ [q]⟩, ?_, ⟨⟨fl', hI'.perm (List.perm_append_singleton q st.live).symm⟩, ?_, ?_⟩, ?_⟩
    · simp only [Op.exec, e, ok_bind, pure_ok]
    · simp [Op.spec, h.len]
    · intro i r b h1 h2
      simp only [Op.spec] at h1 h2
      by_cases hi : i < st.live.length
      · rw [List.getElem?_append_left hi] at h1
        rw [List.getElem?_append_left (by rw [← h.len]; exact hi)] at h2
        have hr : r ∈ st.live := List.mem_of_getElem? h1
        refine (h.agree i r b h1 h2).frame (hI.pages r hr) ?_
        intro k _ hk
        exact hfr k (by have := hI.inrange hr; omega)
      · rw [List.getElem?_append_right (by omega)] at h1
        rw [List.getElem?_append_right (by rw [← h.len]; omega), ← h.len] at h2
        have hi0 : i - st.live.length = 0 := by
          have := (List.getElem?_eq_some_iff.1 h1).1
          simp at this; omega
        rw [hi0] at h1 h2
        simp at h1 h2
        subst h1; subst h2
        refine ⟨by simp [hs], ?_⟩
        intro k x hk
        rw [List.getElem?_replicate] at hk
        split at hk <;> simp at hk
    · simp only [Op.cost]; omega
  | resize i n =>
    obtain ⟨hi, hn⟩ := hp
    have hnc := newCap_le ok (h15 n hn)
    simp only [Op.cost] at hb
    have hil : i < st.live.length := by rw [h.len]; exact hi
    have hq : st.live[i]? = some st.live[i] := List.getElem?_eq_getElem hil
    generalize st.live[i] = q at hq
    have hpm := getElem?_perm hq
    have hb' : s[i]? = some s[i] := List.getElem?_eq_getElem hi
    obtain ⟨q', p', fl', e, hs, hle, hI', hsz, hfr, hct⟩ := resize_ok ok (hI.perm hpm) hn (by omega)
    have hset : (st.live.set i q').Perm (q' :: st.live.eraseIdx i) := set_perm hil q'
    refine ⟨⟨p', st.live.set i q'⟩, ?_, ⟨⟨fl', hI'.perm hset.symm⟩, ?_, ?_⟩, ?_⟩
    · simp only [Op.exec, hq, e, ok_bind, pure_ok]
    · simp [Op.spec, h.len]
    · intro j r b h1 h2
      simp only [Op.spec] at h1 h2
      by_cases hij : j = i
      · subst hij
        rw [List.getElem?_set_self hil] at h1
        injection h1 with h1; subst h1
        rw [modify_get hb'] at h2
        injection h2 with h2; subst h2
        have hA := h.agree j q s[j] hq hb'
        have hlen := hA.1
        refine ⟨?_, ?_⟩
        · rw [hs]; simp; omega
        · intro k x hk
          have hk1 : k < (List.take (n * c.E) s[j]).length := by
            apply Nat.lt_of_not_le
            intro hge
            rw [List.getElem?_append_right hge, List.getElem?_replicate] at hk
            split at hk <;> simp at hk
          rw [List.getElem?_append_left hk1, List.getElem?_take] at hk
          simp only [List.length_take] at hk1
          rw [if_pos (by omega)] at hk
          rw [hct k (by omega) (by omega)]
          exact hA.2 k x hk
      · rw [List.getElem?_set_ne (fun h => hij h.symm)] at h1
        rw [modify_get_ne hij] at h2
        have hr := mem_eraseIdx_of h1 hij
        exact (h.agree j r b h1 h2).frame (hI.pages r (List.mem_of_getElem? h1)) (hfr r hr)
    · simp only [Op.cost]; omega
  | free i =>
    have hi : i < s.length := hp
    have hil : i < st.live.length := by rw [h.len]; exact hi
    have hq : st.live[i]? = some st.live[i] := List.getElem?_eq_getElem hil
    generalize st.live[i] = q at hq
    have hpm := getElem?_perm hq
    obtain ⟨p', fl', e, hI', hl, hfr⟩ := free_ok ok (hI.perm hpm)
    refine ⟨⟨p', st.live.eraseIdx i⟩, ?_, ⟨⟨fl', hI'⟩, ?_, ?_⟩, ?_⟩
    · simp only [Op.exec, hq, e, ok_bind, pure_ok]
    · simp only [Op.spec, List.length_eraseIdx, h.len]
    · intro j r b h1 h2
      simp only [Op.spec] at h1 h2
      have hr : r ∈ st.live.eraseIdx i := List.mem_of_getElem? h1
      have hr2 : r ∈ st.live := hpm.mem_iff.2 (List.mem_cons_of_mem _ hr)
      rw [List.getElem?_eraseIdx] at h1 h2
      have hd := (hI.perm hpm).disj_of hr
      have hA : Agrees c st.p.data r b := by
        split at h1
        · rw [if_pos ‹_›] at h2; exact h.agree _ _ _ h1 h2
        · rw [if_neg ‹_›] at h2; exact h.agree _ _ _ h1 h2
      exact hA.frame (hI.pages r hr2) fun k hk1 hk2 => hfr k (not_in_of_disj hd hk1 hk2)
    · simp [Op.cost, Paged.size, hl]
  | write i off bs =>
    obtain ⟨b0, hb0, hoff⟩ := hp
    have hi : i < s.length := (List.getElem?_eq_some_iff.1 hb0).1
    have hil : i < st.live.length := by rw [h.len]; exact hi
    have hq : st.live[i]? = some st.live[i] := List.getElem?_eq_getElem hil
    generalize st.live[i] = q at hq
    have hqm : q ∈ st.live := List.mem_of_getElem? hq
    have hA := h.agree i q b0 hq hb0
    have hlen := hA.1
    have hpo := hI.pages q hqm
    have hcap : q.size * c.E ≤ q.cap * c.E := mul_le hpo.1
    have hin := hI.inrange hqm
    rw [Nat.add_mul] at hin
    have hfit : q.start * c.E + off + bs.length ≤ st.p.data.length := by omega
    have hbl := MM.blit_length st.p.data (q.start * c.E + off) bs hfit
    have hfr : ∀ k, ¬ (q.start * c.E ≤ k ∧ k < (q.start + q.cap) * c.E) →
        (MM.blit st.p.data (q.start * c.E + off) bs)[k]? = st.p.data[k]? := by
      intro k hk
      rw [MM.blit_get _ _ _ hfit, if_neg]
      intro hc; apply hk; rw [Nat.add_mul]; omega
    refine ⟨⟨{ st.p with data := MM.blit st.p.data (q.start * c.E + off) bs }, st.live⟩, ?_,
      ⟨⟨fl, hI.write ok hqm hbl hfr⟩, ?_, ?_⟩, ?_⟩
    · have er : decide (q.start * c.E + off + bs.length ≤ st.p.data.length) = true := decide_eq_true hfit
      simp only [Op.exec, hq, store, er, require_true, ok_bind, pure_ok]
    · simp [Op.spec, h.len]
    · intro j r b h1 h2
      simp only [Op.spec] at h1 h2
      by_cases hij : j = i
      · subst hij
        rw [hq] at h1
        injection h1 with h1; subst h1
        rw [modify_get hb0] at h2
        injection h2 with h2; subst h2
        refine ⟨by simp; omega, ?_⟩
        intro k x hk
        have hbb : b0.take off ++ bs.map some ++ b0.drop (off + bs.length) = MM.blit b0 off (bs.map some) := by
          simp [MM.blit]
        rw [hbb, MM.blit_get _ _ _ (by simpa using hoff)] at hk
        simp only [List.length_map] at hk
        dsimp only
        rw [MM.blit_get _ _ _ hfit]
        split at hk
        · rw [if_pos (by omega)]
          rw [List.getElem?_map] at hk
          rw [show q.start * c.E + k - (q.start * c.E + off) = k - off by omega]
          cases hx : bs[k - off]? with
          | none => rw [hx] at hk; simp at hk
          | some y => rw [hx] at hk; simpa using hk
        · rw [if_neg (by omega)]
          exact hA.2 k x hk
      · rw [modify_get_ne hij] at h2
        have hr := mem_eraseIdx_of h1 hij
        have hd := (hI.perm (getElem?_perm hq)).disj_of hr
        exact (h.agree j r b h1 h2).frame (hI.pages r (List.mem_of_getElem? h1))
          fun k hk1 hk2 => hfr k (not_in_of_disj hd hk1 hk2)
    · simp [Op.cost, Paged.size, hbl]
  | clear =>
    refine ⟨⟨st.p.clear c, []⟩, rfl, ⟨⟨List.replicate (c.M - c.m + 1) [], ?_⟩, rfl, by simp⟩, ?_⟩
    · have : st.p.clear c = Paged.empty c := by
        simp only [Paged.clear, Paged.empty, List.map_const', hI.frl]
      rw [this]
      exact Inv.empty c
    · simp [Paged.size, Paged.clear]

theorem run_ok (ok : c.Ok) : ∀ (ops : List Op) {st : State} {s : Spec}, Rel c st s → Allowed c s ops →
    st.p.size c + totalCost c ops ≤ c.sentinel →
    ∃ st', run c st ops = .ok st' ∧ Rel c st' (specRun c s ops) ∧ st'.p.size c ≤ st.p.size c + totalCost c ops
  | [], st, s, h, _, _ => ⟨st, rfl, h, Nat.le_add_right _ _⟩
  | op :: ops, st, s, h, ha, hb => by
    have hcost : totalCost c (op :: ops) = op.cost c + totalCost c ops := by simp [totalCost]
    rw [hcost] at hb
    obtain ⟨st1, e1, h1, hs1⟩ := exec_ok ok h ha.1 (by omega)
    obtain ⟨st2, e2, h2, hs2⟩ := run_ok ok ops h1 ha.2 (by omega)
    refine ⟨st2, ?_, h2, by omega⟩
    simp only [run, e1, e2, ok_bind]

theorem rel_empty (c : Cfg) : Rel c ⟨Paged.empty c, []⟩ [] := ⟨⟨_, Inv.empty c⟩, rfl, by simp⟩

end Cista.Paged

import Verif.Throw.HS
import Verif.HS.Iter

set_option linter.unusedSimpArgs false

/-!
# C140 — filling and copying hash tables when something throws

Range insertion, the initializer list constructor, the copy constructor and the copy assignment of `hash_storage` call
`emplace` for one entry after the other (hash_storage.h:261-263, 275-281, 297-309, 409-414).  `emplace` first constructs a
local `entry` (443) from the argument; this copy may throw before anything is changed.  Then it may have to allocate
(`Verif.Fail.HS`).  Both are events of this file; the constructor of the entry in its slot (446) is a move and does not
throw here (`Verif.Throw.HS` is about moves that do).

An exception that leaves a constructor body does not run the destructor of the object: what the members refer to is lost.
-/
namespace Cista.HS

variable {K V : Type} [DecidableEq K]

/-- What happens while one entry is inserted. -/
inductive Ev
  /-- nothing throws -/
  | calm
  /-- the copy constructor of the entry throws (hash_storage.h:443) -/
  | throws
  /-- an allocation, if there is one, fails (hash_storage.h:598-600) -/
  | noMemory
  deriving DecidableEq, Repr

/-- hash_storage.h:409-414: insert the entries of a range, with one event per entry (`calm` when the list is used up); the
flag says whether an exception ended the loop. -/
def fill (hash : K → Nat) : List Ev → List (K × V) → HS K V → Res (HS K V × Bool)
  | _, [], st => .ok (st, false)
  | evs, e :: es, st =>
    match evs.headD .calm with
    | .throws => .ok (st, true)
    | ev => do
      let r ← emplaceF hash (decide (ev = .noMemory)) st e
      if r.2.isNone then .ok (r.1, true) else fill hash evs.tail es r.1

/-- hash_storage.h:297-309 copy assignment (distinct objects). -/
def copyAssignT (hash : K → Nat) (evs : List Ev) (st o : HS K V) : Res (HS K V × Bool) := do
  let st' ← clear st
  if o.size = 0 then .ok (st', false)
  else do
    let es ← iterate o
    fill hash evs es st'

/-- How a constructor ends. -/
inductive Built (K V : Type)
  /-- there is a table -/
  | table (t : HS K V)
  /-- an exception: these members are gone, and nothing was done to what they refer to -/
  | lost (t : HS K V)
  deriving DecidableEq, Repr

/-- A constructor body that fills the table. -/
def built (r : HS K V × Bool) : Built K V := if r.2 then .lost r.1 else .table r.1

/-- hash_storage.h:261-263 `hash_storage(std::initializer_list<T>)`. -/
def initListT (hash : K → Nat) (evs : List Ev) (es : List (K × V)) : Res (Built K V) :=
  (fill hash evs es HS.init).map built

/-- hash_storage.h:275-281 copy constructor. -/
def copyT (hash : K → Nat) (evs : List Ev) (o : HS K V) : Res (Built K V) :=
  if o.size = 0 then .ok (.table HS.init)
  else do
    let es ← iterate o
    (fill hash evs es HS.init).map built

/-! ## Specification -/

/-- Insert the entries whose key is absent. -/
def addAll : List (K × V) → List (K × V) → List (K × V)
  | m, [] => m
  | m, e :: es => addAll (if (lookup m e.1).isSome then m else e :: m) es

/-- The number of entries, of `n`, before the one whose copy throws. -/
def copied : List Ev → Nat → Nat
  | _, 0 => 0
  | [], n => n
  | .throws :: _, _ => 0
  | _ :: evs, n + 1 => copied evs n + 1

/-- The memory the table `t` refers to and the number of entries in it. -/
def owned (t : HS K V) : Bool × Nat := (t.block, (live t.entries).length)

/-! ## Proof -/

theorem copied_le : ∀ (evs : List Ev) (n : Nat), copied evs n ≤ n
  | _, 0 => by simp [copied]
  | [], n + 1 => by simp [copied]
  | .throws :: _, n + 1 => by simp [copied]
  | .calm :: evs, n + 1 => by simpa [copied] using copied_le evs n
  | .noMemory :: evs, n + 1 => by simpa [copied] using copied_le evs n

theorem emplaceF_rep {hash : K → Nat} {N : Nat} {st : HS K V} {m : List (K × V)} (h : Rep hash N st m) (hN : N < 2 ^ 60)
    (e : K × V) : ∃ st' i b, emplaceF hash false st e = .ok (st', some (i, b)) ∧
      Rep hash (N + 1) st' (if (lookup m e.1).isSome then m else e :: m) := by
  rcases h.cases e.1 with ⟨i, v, hf, he, hl⟩ | ⟨hf, habs, hl⟩
  · refine ⟨st, i, false, ?_, by simpa [hl] using h.mono (Nat.le_succ N)⟩
    unfold emplaceF findOrPrepareF
    rw [hf]
    rfl
  · obtain ⟨S, hi, hp⟩ := h
    obtain ⟨st', S', i, h1, h2, _, h4, _⟩ := emplace_absent hi hN habs
    refine ⟨st', i, true, ?_, S', h2, ?_⟩
    · rw [emplaceF_ok, h1]; rfl
    · simpa [hl] using h4.trans (hp.cons e)

theorem fill_ok {hash : K → Nat} : ∀ (es : List (K × V)) (evs : List Ev) {N : Nat} {st : HS K V} {m : List (K × V)},
    Rep hash N st m → N + es.length < 2 ^ 60 → .noMemory ∉ evs →
    ∃ st', fill hash evs es st = .ok (st', decide (copied evs es.length < es.length)) ∧
      Rep hash (N + es.length) st' (addAll m (es.take (copied evs es.length)))
  | [], evs, N, st, m, h, _, _ => ⟨st, by simp [fill, copied], by simpa [addAll] using h⟩
  | e :: es, evs, N, st, m, h, hN, hm => by
    have step : ∀ evs : List Ev, evs.headD .calm = .calm → .noMemory ∉ evs →
        copied evs (es.length + 1) = copied evs.tail es.length + 1 →
        ∃ st', fill hash evs (e :: es) st = .ok (st', decide (copied evs (es.length + 1) < es.length + 1)) ∧
          Rep hash (N + (es.length + 1)) st' (addAll m ((e :: es).take (copied evs (es.length + 1)))) := by
      intro evs hd hm hb
      obtain ⟨st1, i, b, he, hr⟩ := emplaceF_rep h (by simp at hN; omega) e
      obtain ⟨st', hf, hr'⟩ := fill_ok es evs.tail hr (by simp at hN; omega) (fun hc => hm (List.mem_of_mem_tail hc))
      refine ⟨st', ?_, ?_⟩
      · unfold fill
        rw [hd]
        simp only [show decide (Ev.calm = Ev.noMemory) = false from rfl, he, ok_bind, Option.isNone_some, Bool.false_eq_true,
          if_false, hf, hb, Nat.add_lt_add_iff_right]
      · rw [hb, List.take_succ_cons]
        have : N + (es.length + 1) = N + 1 + es.length := by omega
        rw [this]
        exact hr'
    cases evs with
    | nil => exact step [] rfl hm (by cases es <;> simp [copied])
    | cons ev evs =>
      cases ev with
      | throws => exact ⟨st, by simp [fill, copied], by simpa [copied, addAll] using h.mono (by simp)⟩
      | noMemory => exact absurd (List.mem_cons_self) hm
      | calm =>
        exact step (.calm :: evs) rfl hm rfl

theorem addAll_distinct : ∀ (es m : List (K × V)), (es.map Prod.fst).Nodup → (∀ e ∈ es, ∀ f ∈ m, f.1 ≠ e.1) →
    (addAll m es).Perm (es ++ m)
  | [], m, _, _ => List.Perm.refl _
  | e :: es, m, hn, hd => by
    have hl : lookup m e.1 = none := lookup_none fun f hf => hd e List.mem_cons_self f hf
    unfold addAll
    rw [hl]
    simp only [Option.isSome_none, Bool.false_eq_true, if_false]
    simp only [List.map_cons, List.nodup_cons] at hn
    refine (addAll_distinct es (e :: m) hn.2 ?_).trans ?_
    · intro f hf g hg
      rcases List.mem_cons.1 hg with rfl | hg
      · exact fun he => hn.1 (he ▸ List.mem_map_of_mem hf)
      · exact hd f (List.mem_cons_of_mem _ hf) g hg
    · exact List.perm_middle

omit [DecidableEq K] in
theorem Rep.perm {hash : K → Nat} {N : Nat} {st : HS K V} {m m' : List (K × V)} (h : Rep hash N st m) (hp : m.Perm m') :
    Rep hash N st m' := by
  obtain ⟨S, hi, h⟩ := h
  exact ⟨S, hi, h.trans hp⟩

theorem Rep.iterate {hash : K → Nat} {N : Nat} {st : HS K V} {m : List (K × V)} (h : Rep hash N st m) :
    ∃ es, HS.iterate st = .ok es ∧ es.Perm m ∧ st.size = es.length ∧ es.length ≤ N := by
  obtain ⟨S, hi, hp⟩ := h
  have := hi.bnd
  exact ⟨_, iterate_ok hi, hp, hi.size, by rw [← hi.size]; omega⟩

theorem Rep.destroy {hash : K → Nat} {N : Nat} {st : HS K V} {m : List (K × V)} (h : Rep hash N st m) :
    HS.destroy st = .ok () := by
  obtain ⟨S, hi, hp⟩ := h
  exact destroy_ok hi

theorem Rep.owned {hash : K → Nat} {N : Nat} {st : HS K V} {m : List (K × V)} (h : Rep hash N st m) (hm : m ≠ []) :
    HS.owned st = (true, m.length) := by
  obtain ⟨S, hi, hp⟩ := h
  have hl := hp.length_eq
  have h1 : 0 < m.length := List.length_pos_iff.2 hm
  have hlen := hi.core.counts
  have hcap := hi.cap
  unfold HS.owned
  rw [hi.blk, hl]
  have : st.cap ≠ 0 := by omega
  simp [this]

/-- **C140** (range insertion): whichever copy throws, the table holds its old entries and those of the range before the one
whose copy threw, and can be used and destroyed; without a throw it holds them all. -/
theorem C140_insert {hash : K → Nat} {N : Nat} {st : HS K V} {m : List (K × V)} (h : Rep hash N st m) (es : List (K × V))
    (evs : List Ev) (hN : N + es.length < 2 ^ 60) (hm : .noMemory ∉ evs) :
    ∃ st', fill hash evs es st = .ok (st', decide (copied evs es.length < es.length)) ∧
      Rep hash (N + es.length) st' (addAll m (es.take (copied evs es.length))) ∧ destroy st' = .ok () := by
  obtain ⟨st', h1, h2⟩ := fill_ok es evs h hN hm
  exact ⟨st', h1, h2, h2.destroy⟩

/-- Non-vacuity (C140): the third of four copies throws. -/
example : (do
    let r ← fill (fun n : Nat => n) [.calm, .calm, .throws] [(1, 10), (2, 20), (3, 30), (4, 40)] (HS.init : HS Nat Nat)
    let es ← iterate r.1
    .ok (es, r.2)) = .ok ([(1, 10), (2, 20)], true) := by decide +kernel

/-- **C140** (copy assignment): the target loses its entries; then it holds as many entries of the source as were copied before
a copy threw, all of them if none did, and it can be used and destroyed.

Missing: allocations that fail (`C140_memory_violated`). -/
theorem C140_assign_partial {hash : K → Nat} {N M : Nat} {st o : HS K V} {m m' : List (K × V)} (h : Rep hash N st m)
    (ho : Rep hash M o m') (hM : M < 2 ^ 60) (evs : List Ev) (hm : .noMemory ∉ evs) :
    ∃ st' c rest, copyAssignT hash evs st o = .ok (st', decide (copied evs m'.length < m'.length)) ∧
      (c ++ rest).Perm m' ∧ c.length = copied evs m'.length ∧ Rep hash M st' c ∧ destroy st' = .ok () := by
  obtain ⟨es, hit, hp, hsz, hle⟩ := ho.iterate
  have hn := ho.nodup
  obtain ⟨S, hi, _⟩ := h
  obtain ⟨st1, S1, hc, hi1, hl, _, _⟩ := clear_ok hi
  unfold copyAssignT
  rw [hc, ok_bind, ← hp.length_eq]
  by_cases h0 : o.size = 0
  · rw [if_pos h0]
    have hnil : es = [] := List.eq_nil_of_length_eq_zero (by omega)
    have hr : Rep hash 0 st1 [] := ⟨S1, hi1, by rw [hl]⟩
    subst hnil
    exact ⟨st1, [], [], by simp [copied], hp, by simp [copied], hr.mono (by omega), hr.destroy⟩
  · rw [if_neg h0, hit, ok_bind]
    have hr : Rep hash 0 st1 [] := ⟨S1, hi1, by rw [hl]⟩
    obtain ⟨st', h1, h2⟩ := fill_ok es evs hr (by omega) hm
    have hpre : copied evs es.length ≤ es.length := copied_le _ _
    have hd : (addAll [] (es.take (copied evs es.length))).Perm (es.take (copied evs es.length)) := by
      have := addAll_distinct (es.take (copied evs es.length)) []
        (((List.take_sublist _ es).map Prod.fst).nodup ((hp.map Prod.fst).nodup_iff.2 hn)) (by simp)
      simpa using this
    refine ⟨st', es.take (copied evs es.length), es.drop (copied evs es.length), h1, ?_, ?_, ?_, h2.destroy⟩
    · rw [List.take_append_drop]; exact hp
    · rw [List.length_take]; omega
    · exact (h2.mono (by omega)).perm hd

/-- Non-vacuity (C140): the second of three copies throws. -/
example : (do
    let o ← insertAll (fun n : Nat => n) [(1, 10), (2, 20), (3, 30)] (HS.init : HS Nat Nat)
    let st ← insertAll (fun n : Nat => n) [(7, 70), (8, 80)] HS.init
    let r ← copyAssignT (fun n : Nat => n) [.calm, .throws] st o
    let es ← iterate r.1
    .ok (es.length, r.2)) = .ok (1, true) := by decide +kernel

theorem fill_init {hash : K → Nat} (es : List (K × V)) (evs : List Ev) (hN : es.length < 2 ^ 60) (hm : .noMemory ∉ evs) :
    ∃ st', fill hash evs es HS.init = .ok (st', decide (copied evs es.length < es.length)) ∧
      Rep hash es.length st' (addAll [] (es.take (copied evs es.length))) := by
  obtain ⟨st', h1, h2⟩ := fill_ok es evs (Rep.init hash (V := V)) (by omega) hm
  exact ⟨st', h1, by simpa using h2⟩

/-- **C140** (copy constructor, nothing throws or already the first copy does): there is a table with the entries of the
source, or nothing was allocated.

Missing: a later copy that throws (`C140_copy_violated`). -/
theorem C140_copy_partial {hash : K → Nat} {M : Nat} {o : HS K V} {m : List (K × V)} (ho : Rep hash M o m) (hM : M < 2 ^ 60)
    (evs : List Ev) (hm : .noMemory ∉ evs) :
    (m.length ≤ copied evs m.length → ∃ st, copyT hash evs o = .ok (.table st) ∧ Rep hash M st m) ∧
    (copied evs m.length = 0 → m ≠ [] → ∃ st, copyT hash evs o = .ok (.lost st) ∧ st = HS.init) := by
  obtain ⟨es, hit, hp, hsz, hle⟩ := ho.iterate
  have hn := ho.nodup
  rw [← hp.length_eq]
  unfold copyT
  constructor
  · intro hb
    by_cases h0 : o.size = 0
    · rw [if_pos h0]
      have hnil : es = [] := List.eq_nil_of_length_eq_zero (by omega)
      subst hnil
      exact ⟨_, rfl, ((Rep.init hash).mono (Nat.zero_le M)).perm hp⟩
    · rw [if_neg h0, hit, ok_bind]
      obtain ⟨st', h1, h2⟩ := fill_init es evs (hash := hash) (by omega) hm
      refine ⟨st', ?_, (h2.mono (by omega)).perm ?_⟩
      · rw [h1]
        simp [Except.map, built, show ¬ copied evs es.length < es.length by omega]
      · rw [List.take_of_length_le hb]
        have := addAll_distinct es [] ((hp.map Prod.fst).nodup_iff.2 hn) (by simp)
        rw [List.append_nil] at this
        exact this.trans hp
  · intro hb hne
    have hne' : es ≠ [] := fun h => hne (by rw [h] at hp; exact hp.symm.eq_nil)
    have hpos := List.length_pos_iff.2 hne'
    rw [if_neg (by omega), hit, ok_bind]
    refine ⟨HS.init, ?_, rfl⟩
    cases es with
    | nil => exact absurd rfl hne'
    | cons e es =>
      cases evs with
      | nil => simp [copied] at hb
      | cons ev evs =>
        cases ev with
        | calm => simp [copied, List.findIdx_cons] at hb
        | noMemory => exact absurd List.mem_cons_self hm
        | throws => simp [fill, Except.map, built]

/-- Non-vacuity (C140). -/
example : (do
    let o ← insertAll (fun n : Nat => n) [(1, 10), (2, 20), (3, 30)] (HS.init : HS Nat Nat)
    copyT (fun n : Nat => n) [.throws] o) = .ok (.lost HS.init) := by decide +kernel

/-- **C140** (copy constructor) **violated**: whenever the copy of an entry other than the first throws, the memory allocated
for the new table and the entries copied so far are leaked: they are never destroyed and never released. -/
theorem C140_copy_violated {hash : K → Nat} {M : Nat} {o : HS K V} {m : List (K × V)} (ho : Rep hash M o m) (hM : M < 2 ^ 60)
    (evs : List Ev) (hm : .noMemory ∉ evs) (h1 : 1 ≤ copied evs m.length) (h2 : copied evs m.length < m.length) :
    ∃ st, copyT hash evs o = .ok (.lost st) ∧ owned st = (true, copied evs m.length) := by
  obtain ⟨es, hit, hp, hsz, hle⟩ := ho.iterate
  have hn := ho.nodup
  rw [← hp.length_eq] at h1 h2 ⊢
  unfold copyT
  rw [if_neg (by omega), hit, ok_bind]
  obtain ⟨st', hf, hr⟩ := fill_init es evs (hash := hash) (by omega) hm
  have hd : (addAll [] (es.take (copied evs es.length))).Perm (es.take (copied evs es.length)) := by
    have := addAll_distinct (es.take (copied evs es.length)) []
      (((List.take_sublist _ es).map Prod.fst).nodup ((hp.map Prod.fst).nodup_iff.2 hn)) (by simp)
    simpa using this
  have hlen : (es.take (copied evs es.length)).length = copied evs es.length := by
    rw [List.length_take]; have := copied_le evs es.length; omega
  refine ⟨st', ?_, ?_⟩
  · rw [hf]
    simp [Except.map, built, h2]
  · have := (hr.perm hd).owned (fun hc => by rw [hc] at hlen; simp at hlen; omega)
    rw [this, hlen]

/-- **C140** (initializer list constructor) **violated** in the same way. -/
theorem C140_init_list_violated {hash : K → Nat} (es : List (K × V)) (hM : es.length < 2 ^ 60) (evs : List Ev)
    (hm : .noMemory ∉ evs) (h1 : 1 ≤ copied evs es.length) (h2 : copied evs es.length < es.length)
    (hn : (es.map Prod.fst).Nodup) :
    ∃ st, initListT hash evs es = .ok (.lost st) ∧ owned st = (true, copied evs es.length) := by
  unfold initListT
  obtain ⟨st', hf, hr⟩ := fill_init es evs (hash := hash) hM hm
  have hd : (addAll [] (es.take (copied evs es.length))).Perm (es.take (copied evs es.length)) := by
    have := addAll_distinct (es.take (copied evs es.length)) []
      (((List.take_sublist _ es).map Prod.fst).nodup hn) (by simp)
    simpa using this
  have hlen : (es.take (copied evs es.length)).length = copied evs es.length := by
    rw [List.length_take]; have := copied_le evs es.length; omega
  refine ⟨st', ?_, ?_⟩
  · rw [hf]
    simp [Except.map, built, h2]
  · have := (hr.perm hd).owned (fun hc => by rw [hc] at hlen; simp at hlen; omega)
    rw [this, hlen]

/-- Non-vacuity (C140): the third of three copies throws, two entries and their memory are lost. -/
example : (do
    let o ← insertAll (fun n : Nat => n) [(1, 10), (2, 20), (3, 30)] (HS.init : HS Nat Nat)
    let b ← copyT (fun n : Nat => n) [.calm, .calm, .throws] o
    match b with
    | .lost t => .ok (owned t)
    | .table _ => .error .diverge) = .ok (true, 2) := by decide +kernel

/-- **C140** (copy assignment) **violated** when memory runs out: if the source has at least two entries and the second
allocation fails, the target loses its memory and already its destructor has undefined behaviour. -/
theorem C140_memory_violated {hash : K → Nat} {N M : Nat} {st o : HS K V} {m m' : List (K × V)} (h : Rep hash N st m)
    (ho : Rep hash M o m') (h2 : 2 ≤ m'.length) :
    ∃ st', copyAssignT hash [.calm, .noMemory] st o = .ok (st', true) ∧ st'.block = false ∧ destroy st' = .error .ub := by
  obtain ⟨es, hit, hp, hsz, hle⟩ := ho.iterate
  have hn := ho.nodup
  obtain ⟨S, hi, _⟩ := h
  obtain ⟨st1, S1, hc, hi1, hl, hcap0, hS1⟩ := clear_ok hi
  have hlen := hp.length_eq
  unfold copyAssignT
  rw [hc, ok_bind, if_neg (by omega), hit, ok_bind]
  have hn' := (hp.map Prod.fst).nodup_iff.2 hn
  match es, hlen, hn' with
  | [], hlen, _ => simp at hlen; omega
  | [_], hlen, _ => simp at hlen; omega
  | e :: f :: es, hlen, hn' =>
    simp only [List.map_cons, List.nodup_cons, List.mem_cons, not_or] at hn'
    obtain ⟨st2, S2, i, he, hi2, _, hl2, hdel⟩ := emplace_absent (e := e) hi1 (by omega)
      (by intro f hf; rw [hl] at hf; simp at hf)
    obtain ⟨hk, _⟩ := emplace_inv he
    have hls : (live st2.entries).length = 1 := by rw [hl2.length_eq, hl]; rfl
    have hcounts := hi2.core.counts
    have hcap := hi2.cap
    have hcnt := hi2.cnt
    have hsize := hi2.size
    have hc1 : st2.cap = 1 := by rcases hk.cap with hk | hk <;> omega
    have hg0 : st2.growth = 0 := by
      rw [← hcap, hc1] at hcnt
      simp [growthOf] at hcnt
      omega
    have habs : ∀ g ∈ live st2.entries, g.1 ≠ f.1 := by
      intro g hg
      have := hl2.mem_iff.1 hg
      rw [hl] at this
      simp at this
      subst this
      exact hn'.1.1
    have hfull : ∀ c ∈ S2, isED c = false := by
      intro c hc
      have he0 : S2.count EMPTY = 0 := by omega
      have hd0 : S2.count DELETED = 0 := by omega
      have h1 : c ≠ EMPTY := fun hce => by
        rw [hce] at hc; exact absurd (List.count_pos_iff.2 hc) (by omega)
      have h2 : c ≠ DELETED := fun hce => by
        rw [hce] at hc; exact absurd (List.count_pos_iff.2 hc) (by omega)
      have h3 : c < 128 := by
        rcases hi2.core.sv c hc with hq | hq | hq
        · exact hq
        · exact absurd hq h1
        · exact absurd hq h2
      unfold isED
      simp only [decide_eq_false_iff_not]
      omega
    obtain ⟨t, ht⟩ := hi2.lay
    have hff : findFirst st2.ctrl st2.cap (hash f.1) = .ok st2.cap := by
      rw [ht, hcap]
      exact findFirst_full t hi2.core.pc hi2.core.sv _ (by omega) hfull
    have hend : ctrlAt st2.ctrl st2.cap = .ok END := by
      unfold ctrlAt
      rw [ht, hcap, layout, List.append_assoc, List.getElem?_append_right (Nat.le_refl _), Nat.sub_self]
      rfl
    have hrep : Rep hash 1 st2 [e] := ⟨S2, hi2, by rw [hl] at hl2; exact hl2⟩
    obtain ⟨st3, hgr, hblk, _, _, hdes⟩ := C105_nonempty_violated hrep (by simp)
    have hF : emplaceF hash true st2 f = .ok (st3, none) := by
      unfold emplaceF findOrPrepareF prepareInsertF
      rw [hi2.find_none habs]
      simp only [ok_bind, hff, hend]
      rw [if_pos ⟨hg0, by decide⟩, hgr]
      rfl
    refine ⟨st3, ?_, hblk, hdes⟩
    unfold fill
    simp only [List.headD_cons, show decide (Ev.calm = Ev.noMemory) = false from rfl, emplaceF_ok, he, Except.map, ok_bind,
      Option.isNone_some, Bool.false_eq_true, if_false, List.tail_cons]
    unfold fill
    simp only [List.headD_cons, decide_true, hF, ok_bind, Option.isNone_none, if_true]

/-- Non-vacuity (C140): two entries are copied over one. -/
example : (do
    let o ← insertAll (fun n : Nat => n) [(1, 10), (2, 20)] (HS.init : HS Nat Nat)
    let st ← insertAll (fun n : Nat => n) [(7, 70)] HS.init
    let r ← copyAssignT (fun n : Nat => n) [.calm, .noMemory] st o
    destroy r.1) = .error .ub := by decide +kernel

end Cista.HS

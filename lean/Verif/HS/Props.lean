import Verif.HS.Ops

/-!
# C31, C32, C33 – the hash table is a finite map

Specification: a finite map is a list of pairs with distinct keys, in any order; `lookup` is the value of a key.  The history
theorem compares every answer of every operation with that of the list.
-/
set_option linter.unusedSimpArgs false
set_option linter.unusedSectionVars false

namespace Cista.HS

variable {K V : Type} [DecidableEq K]

/-! ## Specification -/

/-- Value of a key. -/
def lookup (m : List (K × V)) (k : K) : Option V := (m.find? fun e => decide (e.1 = k)).map Prod.snd

/-- Operations.  `erase` is by key, `copy` replaces the map by a copy of itself (destroying the original), `move` by the result of
move construction. -/
inductive Op (K V : Type) where
  | emplace (k : K) (v : V)
  | bracket (k : K)
  | assign (k : K) (v : V)
  | get (k : K)
  | atKey (k : K)
  | erase (k : K)
  | size
  | clear
  | rehash
  | copy
  | move

/-- Answers. -/
inductive Out (V : Type) where
  | none
  | value (v : Option V)
  | inserted (v : V) (b : Bool)
  | count (n : Nat)
  | threw
  deriving DecidableEq

/-- What a finite map does; `d` is the default value of `V`. -/
def Op.spec (d : V) (m : List (K × V)) : Op K V → List (K × V) × Out V
  | .emplace k v => match lookup m k with
    | some v' => (m, .inserted v' false)
    | none => ((k, v) :: m, .inserted v true)
  | .bracket k => match lookup m k with
    | some v' => (m, .value (some v'))
    | none => ((k, d) :: m, .value (some d))
  | .assign k v => match lookup m k with
    | some _ => (m.map fun e => if e.1 = k then (k, v) else e, .none)
    | none => ((k, v) :: m, .none)
  | .get k => (m, .value (lookup m k))
  | .atKey k => match lookup m k with
    | some v => (m, .value (some v))
    | none => (m, .threw)
  | .erase k => match lookup m k with
    | some _ => (m.filter fun e => decide (e.1 ≠ k), .count 1)
    | none => (m, .count 0)
  | .size => (m, .count m.length)
  | .clear => ([], .none)
  | .rehash => (m, .none)
  | .copy => (m, .none)
  | .move => (m, .none)

/-- The model's operations.  `size` is hash_storage.h:481. -/
def Op.exec (hash : K → Nat) (d : V) (st : HS K V) : Op K V → Res (HS K V × Out V)
  | .emplace k v => do
    let r ← HS.emplace hash st (k, v)
    let e ← entryAt r.1.entries r.2.1
    .ok (r.1, .inserted e.2 r.2.2)
  | .bracket k => do
    let r ← HS.bracket hash d st k
    let e ← entryAt r.1.entries r.2
    .ok (r.1, .value (some e.2))
  | .assign k v => do
    let r ← HS.bracket hash d st k
    let st' ← assignAt r.1 r.2 v
    .ok (st', .none)
  | .get k => do
    let r ← HS.get hash st k
    .ok (st, .value r)
  | .atKey k => match HS.at' hash st k with
    | .ok v => .ok (st, .value (some v))
    | .error .exn => .ok (st, .threw)
    | .error e => .error e
  | .erase k => do
    let r ← HS.erase hash st k
    .ok (r.1, .count r.2)
  | .size => .ok (st, .count st.size)
  | .clear => do
    let st' ← HS.clear st
    .ok (st', .none)
  | .rehash => do
    let st' ← HS.rehash hash st
    .ok (st', .none)
  | .copy => do
    let st' ← HS.copy hash st
    HS.destroy st
    .ok (st', .none)
  | .move => do
    HS.destroy (moveCtor st).2
    .ok ((moveCtor st).1, .none)

def run (hash : K → Nat) (d : V) : HS K V → List (Op K V) → Res (HS K V × List (Out V))
  | st, [] => .ok (st, [])
  | st, op :: ops => do
    let r ← op.exec hash d st
    let s ← run hash d r.1 ops
    .ok (s.1, r.2 :: s.2)

def specRun (d : V) : List (K × V) → List (Op K V) → List (K × V) × List (Out V)
  | m, [] => (m, [])
  | m, op :: ops => ((specRun d (op.spec d m).1 ops).1, (op.spec d m).2 :: (specRun d (op.spec d m).1 ops).2)

/-- `rehash()` is only called on a map with entries (see `C31_rehash_violated`). -/
def Op.Pre (m : List (K × V)) : Op K V → Prop
  | .rehash => m ≠ []
  | _ => True

def Allowed (d : V) : List (K × V) → List (Op K V) → Prop
  | _, [] => True
  | m, op :: ops => op.Pre m ∧ Allowed d (op.spec d m).1 ops

/-! ## Proof -/

theorem lookup_some {m : List (K × V)} (hn : (m.map Prod.fst).Nodup) {k : K} {v : V} (h : (k, v) ∈ m) : lookup m k = some v := by
  induction m with
  | nil => simp at h
  | cons e m ih =>
    simp only [List.map_cons, List.nodup_cons] at hn
    unfold lookup
    rw [List.find?_cons]
    rcases List.mem_cons.1 h with rfl | h
    · simp
    · have : e.1 ≠ k := fun hk => hn.1 (by rw [hk]; exact List.mem_map.2 ⟨(k, v), h, rfl⟩)
      simp only [decide_eq_false this]
      exact ih hn.2 h

theorem lookup_none {m : List (K × V)} {k : K} (h : ∀ e ∈ m, e.1 ≠ k) : lookup m k = none := by
  unfold lookup
  rw [List.find?_eq_none.2 (fun e he => by simpa using h e he)]; rfl

theorem mem_of_lookup {m : List (K × V)} {k : K} {v : V} (h : lookup m k = some v) : (k, v) ∈ m := by
  unfold lookup at h
  cases hf : m.find? fun e => decide (e.1 = k) with
  | none => rw [hf] at h; simp at h
  | some e =>
    rw [hf] at h
    have h1 := List.mem_of_find?_eq_some hf
    have h2 := List.find?_some hf
    simp at h h2
    rw [← h, ← h2]; exact h1

/-- State of a table representing the map `m` after at most `N` operations. -/
def Rep (hash : K → Nat) (N : Nat) (st : HS K V) (m : List (K × V)) : Prop :=
  ∃ S, Inv hash N st S ∧ (live st.entries).Perm m

/-- The operation cannot leave a tombstone. -/
def Op.noErase : Op K V → Bool
  | .erase _ => false
  | _ => true

theorem Rep.nodup {hash : K → Nat} {N : Nat} {st : HS K V} {m : List (K × V)} (h : Rep hash N st m) : (m.map Prod.fst).Nodup := by
  obtain ⟨S, hi, hp⟩ := h
  exact (hp.map Prod.fst).nodup_iff.1 hi.nodup

theorem Rep.cases {hash : K → Nat} {N : Nat} {st : HS K V} {m : List (K × V)} (h : Rep hash N st m) (k : K) :
    (∃ (i : Nat) (v : V), find hash st k = .ok (some i) ∧ st.entries[i]? = some (some (k, v)) ∧ lookup m k = some v) ∨
      (find hash st k = .ok none ∧ (∀ f ∈ live st.entries, f.1 ≠ k) ∧ lookup m k = none) := by
  have hn := h.nodup
  obtain ⟨S, hi, hp⟩ := h
  rcases hi.find_cases k with ⟨i, v, h1, h2, h3⟩ | ⟨h1, h2⟩
  · exact Or.inl ⟨i, v, h1, h2, lookup_some hn (hp.mem_iff.1 h3)⟩
  · exact Or.inr ⟨h1, h2, lookup_none fun e he => h2 e (hp.mem_iff.2 he)⟩

theorem Rep.get {hash : K → Nat} {N : Nat} {st : HS K V} {m : List (K × V)} (h : Rep hash N st m) (k : K) :
    get hash st k = .ok (lookup m k) := by
  unfold HS.get
  rcases h.cases k with ⟨i, v, h1, h2, h3⟩ | ⟨h1, _, h3⟩
  · rw [h1, h3]
    simp only [ok_bind]
    unfold entryAt; rw [h2]; rfl
  · rw [h1, h3]; rfl

theorem Rep.mono {hash : K → Nat} {N M : Nat} {st : HS K V} {m : List (K × V)} (h : Rep hash N st m) (hm : N ≤ M) : Rep hash M st m := by
  obtain ⟨S, hi, hp⟩ := h
  exact ⟨S, hi.mono hm, hp⟩

/-- The remaining entries when slot `i` holds key `k`. -/
theorem Rep.split {hash : K → Nat} {N : Nat} {st : HS K V} {m : List (K × V)} (h : Rep hash N st m) {i : Nat} {k : K} {v : V}
    (he : st.entries[i]? = some (some (k, v))) :
    m.Perm ((k, v) :: live (st.entries.set i none)) ∧ ∀ f ∈ live (st.entries.set i none), f.1 ≠ k := by
  have hn := h.nodup
  obtain ⟨S, hi, hp⟩ := h
  have h1 := hp.symm.trans (live_set_none he)
  refine ⟨h1, fun f hf hk => ?_⟩
  have h2 := (h1.map Prod.fst).nodup_iff.1 hn
  simp only [List.map_cons, List.nodup_cons] at h2
  exact h2.1 (List.mem_map.2 ⟨f, hf, hk⟩)

theorem filter_ne {R : List (K × V)} {k : K} (h : ∀ f ∈ R, f.1 ≠ k) : R.filter (fun e => decide (e.1 ≠ k)) = R :=
  List.filter_eq_self.2 fun f hf => by simpa using h f hf

theorem map_ne {R : List (K × V)} {k : K} {v : V} (h : ∀ f ∈ R, f.1 ≠ k) : R.map (fun e => if e.1 = k then (k, v) else e) = R := by
  conv => rhs; rw [← List.map_id R]
  exact List.map_congr_left fun f hf => by simp [h f hf]

theorem eraseAt_rep {hash : K → Nat} {N : Nat} {st : HS K V} {m : List (K × V)} (h : Rep hash N st m) {i : Nat} {k : K} {v : V}
    (he : st.entries[i]? = some (some (k, v))) :
    ∃ st', eraseAt st i = .ok st' ∧ Rep hash N st' (m.filter fun e => decide (e.1 ≠ k)) := by
  obtain ⟨hs, hne⟩ := h.split he
  obtain ⟨S, hi, hp⟩ := h
  obtain ⟨st', S', h1, h2, h3, h4⟩ := eraseAt_ok hi he
  refine ⟨st', h1, S', h2, ?_⟩
  have := hs.filter fun e => decide (e.1 ≠ k)
  rw [List.filter_cons_of_neg (by simp), filter_ne hne] at this
  rw [h3]; exact this.symm

theorem exec_ok {hash : K → Nat} {d : V} {N : Nat} {st : HS K V} {m : List (K × V)} {S : List Nat} (hi : Inv hash N st S)
    (hp : (live st.entries).Perm m) (hN : N + 1 < 2 ^ 60) {op : Op K V} (hpre : op.Pre m) :
    ∃ st' S', op.exec hash d st = .ok (st', (op.spec d m).2) ∧ Inv hash (N + 1) st' S' ∧ (live st'.entries).Perm (op.spec d m).1 ∧
      (op.noErase = true → S'.count DELETED ≤ S.count DELETED) := by
  have hr : Rep hash N st m := ⟨S, hi, hp⟩
  have hm : Inv hash (N + 1) st S := hi.mono (by omega)
  cases op with
  | emplace k v =>
    rcases hr.cases k with ⟨i, v', h1, h2, h3⟩ | ⟨h1, h2, h3⟩
    · refine ⟨st, S, ?_, hm, ?_, fun _ => Nat.le_refl _⟩
      · simp only [Op.exec, Op.spec, h3]
        rw [emplace_present hi (e := (k, v)) h2, ok_bind]
        unfold entryAt; rw [h2]; rfl
      · simp only [Op.spec, h3]; exact hp
    · obtain ⟨st', S', i, he, hi', hget, hp', hd⟩ := emplace_absent hi (by omega) (e := (k, v)) h2
      refine ⟨st', S', ?_, hi', ?_, fun _ => hd⟩
      · simp only [Op.exec, Op.spec, h3]
        rw [he, ok_bind]
        unfold entryAt; rw [hget]; rfl
      · simp only [Op.spec, h3]; exact hp'.trans (hp.cons _)
  | bracket k =>
    rcases hr.cases k with ⟨i, v', h1, h2, h3⟩ | ⟨h1, h2, h3⟩
    · refine ⟨st, S, ?_, hm, ?_, fun _ => Nat.le_refl _⟩
      · simp only [Op.exec, Op.spec, h3]
        rw [bracket_present hi d h2, ok_bind]
        unfold entryAt; rw [h2]; rfl
      · simp only [Op.spec, h3]; exact hp
    · obtain ⟨st', S', i, he, hi', hget, hp', hd⟩ := bracket_absent hi (by omega) d h2
      refine ⟨st', S', ?_, hi', ?_, fun _ => hd⟩
      · simp only [Op.exec, Op.spec, h3]
        rw [he, ok_bind]
        unfold entryAt; rw [hget]; rfl
      · simp only [Op.spec, h3]; exact hp'.trans (hp.cons _)
  | assign k v =>
    rcases hr.cases k with ⟨i, v', h1, h2, h3⟩ | ⟨h1, h2, h3⟩
    · obtain ⟨st', ha, hi', hes⟩ := assignAt_ok hi v h2
      refine ⟨st', S, ?_, hi'.mono (by omega), ?_, fun _ => Nat.le_refl _⟩
      · simp only [Op.exec, Op.spec, h3]
        rw [bracket_present hi d h2, ok_bind, ha, ok_bind]
      · simp only [Op.spec, h3]
        obtain ⟨hs, hne⟩ := hr.split h2
        rw [hes]
        refine (live_replace h2).trans ?_
        have := hs.map fun e => if e.1 = k then (k, v) else e
        rw [List.map_cons, if_pos rfl, map_ne hne] at this
        exact this.symm
    · obtain ⟨st1, S1, i, he, hi1, hget, hp1, hd⟩ := bracket_absent hi (by omega) d h2
      obtain ⟨st', ha, hi', hes⟩ := assignAt_ok hi1 v hget
      refine ⟨st', S1, ?_, hi', ?_, fun _ => hd⟩
      · simp only [Op.exec, Op.spec, h3]
        rw [he, ok_bind, ha, ok_bind]
      · simp only [Op.spec, h3]
        rw [hes]
        refine (live_replace hget).trans (List.Perm.cons _ ?_)
        have h4 : (live st1.entries).Perm ((k, d) :: live (st1.entries.set i none)) := live_set_none hget
        exact ((h4.symm.trans hp1).cons_inv).trans hp
  | get k =>
    refine ⟨st, S, ?_, hm, hp, fun _ => Nat.le_refl _⟩
    simp only [Op.exec, Op.spec]
    rw [hr.get k, ok_bind]
  | atKey k =>
    have hg := hr.get k
    refine ⟨st, S, ?_, hm, ?_, fun _ => Nat.le_refl _⟩
    · simp only [Op.exec, Op.spec, HS.at', hg, ok_bind]
      cases lookup m k <;> rfl
    · simp only [Op.spec]
      cases lookup m k <;> exact hp
  | erase k =>
    rcases hr.cases k with ⟨i, v', h1, h2, h3⟩ | ⟨h1, h2, h3⟩
    · obtain ⟨st', he, S', hi', hp'⟩ := eraseAt_rep hr h2
      refine ⟨st', S', ?_, hi'.mono (by omega), ?_, fun h => by cases h⟩
      · simp only [Op.exec, Op.spec, h3, HS.erase, h1, ok_bind, he]
      · simp only [Op.spec, h3]; exact hp'
    · refine ⟨st, S, ?_, hm, ?_, fun h => by cases h⟩
      · simp only [Op.exec, Op.spec, h3, HS.erase, h1, ok_bind]
      · simp only [Op.spec, h3]; exact hp
  | size =>
    refine ⟨st, S, ?_, hm, hp, fun _ => Nat.le_refl _⟩
    simp only [Op.exec, Op.spec]
    rw [hi.size, hp.length_eq]
  | clear =>
    obtain ⟨st', S', hc, hi', hl, _, hS⟩ := clear_ok hi
    refine ⟨st', S', ?_, hi'.mono (by omega), by simp only [Op.spec]; rw [hl], fun _ => by rw [hS]; simp⟩
    simp only [Op.exec, Op.spec, hc, ok_bind]
  | rehash =>
    have hne : m ≠ [] := hpre
    have hlen : 0 < st.size := by
      rw [hi.size, hp.length_eq]
      exact List.length_pos_iff.2 hne
    have hcnt := hi.cnt
    have hcap := hi.cap
    have hg : growthOf S.length ≤ S.length := by unfold growthOf; split <;> omega
    have hcb := hi.cbnd
    obtain ⟨st', S', h1, h2, _, h4, _, _, hd⟩ := resize_ok hi (ncap := st.cap) (by rw [hi.cap]; exact hi.core.pc) (by omega)
      (by rw [hi.cap]; omega) (by omega)
    refine ⟨st', S', ?_, h2.mono (by omega), h4.trans hp, fun _ => by omega⟩
    simp only [Op.exec, Op.spec, HS.rehash, h1, ok_bind]
  | copy =>
    have hdes := destroy_ok hi
    by_cases h0 : st.size = 0
    · have hl : live st.entries = [] := List.eq_nil_of_length_eq_zero (by rw [← hi.size]; exact h0)
      rw [hl] at hp
      refine ⟨HS.init, [], ?_, (Inv.init hash false).mono (by omega), ?_, fun _ => by simp⟩
      · simp only [Op.exec, Op.spec, HS.copy, if_pos h0, ok_bind, hdes]
      · simp only [Op.spec]; exact hp
    · have hlen := hi.size
      have hb := hi.bnd
      obtain ⟨st', S', h1, h2, h3, hd⟩ := insertAll_ok (es := live st.entries) (Inv.init hash (V := V) false) (by omega) hi.nodup
        (by intro e _ f hf; simp [live, HS.init] at hf)
      refine ⟨st', S', ?_, h2.mono (by omega), ?_, fun _ => by simp at hd; rw [hd]; omega⟩
      · have h1' : insertAll hash (live st.entries) HS.init = .ok st' := h1
        simp only [Op.exec, Op.spec, HS.copy, if_neg h0, iterate_ok hi, ok_bind, h1', hdes]
      · simp only [Op.spec]
        refine h3.trans ?_
        simpa [live, HS.init] using hp
  | move =>
    refine ⟨st, S, ?_, hm, hp, fun _ => Nat.le_refl _⟩
    have : destroy (HS.init : HS K V) = .ok () := destroy_ok (Inv.init hash (V := V) false)
    simp only [Op.exec, Op.spec, moveCtor, this, ok_bind]

theorem run_ok' {hash : K → Nat} {d : V} : ∀ (ops : List (Op K V)) {N : Nat} {st : HS K V} {m : List (K × V)} {S : List Nat},
    Inv hash N st S → (live st.entries).Perm m → N + ops.length < 2 ^ 60 → Allowed d m ops →
    ∃ st' S', run hash d st ops = .ok (st', (specRun d m ops).2) ∧ Inv hash (N + ops.length) st' S' ∧
      (live st'.entries).Perm (specRun d m ops).1 ∧ (ops.all Op.noErase = true → S'.count DELETED ≤ S.count DELETED)
  | [], N, st, m, S, h, hp, _, _ => ⟨st, S, rfl, h, hp, fun _ => Nat.le_refl _⟩
  | op :: ops, N, st, m, S, h, hp, hN, ha => by
    rw [List.length_cons] at hN
    obtain ⟨st1, S1, h1, h2, hp1, hd1⟩ := exec_ok (d := d) h hp (by omega) ha.1
    obtain ⟨st2, S2, h3, h4, hp2, hd2⟩ := run_ok' ops h2 hp1 (by omega) ha.2
    refine ⟨st2, S2, ?_, by rw [List.length_cons, show N + (ops.length + 1) = N + 1 + ops.length by omega]; exact h4, hp2, fun hall => ?_⟩
    · simp only [run, specRun, h1, ok_bind, h3]
    · rw [List.all_cons, Bool.and_eq_true] at hall
      exact Nat.le_trans (hd2 hall.2) (hd1 hall.1)

theorem run_ok {hash : K → Nat} {d : V} (ops : List (Op K V)) {N : Nat} {st : HS K V} {m : List (K × V)} (h : Rep hash N st m)
    (hN : N + ops.length < 2 ^ 60) (ha : Allowed d m ops) :
    ∃ st', run hash d st ops = .ok (st', (specRun d m ops).2) ∧ Rep hash (N + ops.length) st' (specRun d m ops).1 := by
  obtain ⟨S, hi, hp⟩ := h
  obtain ⟨st', S', h1, h2, h3, _⟩ := run_ok' ops hi hp hN ha
  exact ⟨st', h1, S', h2, h3⟩

theorem Rep.init (hash : K → Nat) {V : Type} : Rep hash 0 (HS.init : HS K V) [] := ⟨[], Inv.init hash false, List.Perm.refl _⟩

/-! ## Theorems -/

/-- **C31** Whatever the hash function, every history (of fewer than 2^60 operations) answers like a finite map, `size` is the number
of keys, every key is found exactly when present with its value, and destroying the map releases everything. -/
theorem C31_history (hash : K → Nat) (d : V) (ops : List (Op K V)) (hlen : ops.length < 2 ^ 60) (ha : Allowed d [] ops) :
    ∃ st, run hash d HS.init ops = .ok (st, (specRun d [] ops).2) ∧ st.size = (specRun d [] ops).1.length ∧
      (∀ k, get hash st k = .ok (lookup (specRun d [] ops).1 k)) ∧ ((specRun d [] ops).1.map Prod.fst).Nodup ∧
      destroy st = .ok () := by
  obtain ⟨st, h1, h2⟩ := run_ok ops (Rep.init hash) (by omega) ha
  obtain ⟨S, hi, hp⟩ := h2
  exact ⟨st, h1, by rw [hi.size, hp.length_eq], (Rep.get ⟨S, hi, hp⟩), Rep.nodup ⟨S, hi, hp⟩, destroy_ok hi⟩

/-- **C31** Erasing at an iterator removes exactly the entry it points to: after any history, for every position of a live entry. -/
theorem C31_erase_iterator (hash : K → Nat) (d : V) (ops : List (Op K V)) (hlen : ops.length < 2 ^ 60) (ha : Allowed d [] ops)
    {st : HS K V} {outs : List (Out V)} (hrun : run hash d HS.init ops = .ok (st, outs)) {i : Nat} {k : K} {v : V}
    (he : entryAt st.entries i = .ok (k, v)) :
    ∃ st', eraseAt st i = .ok st' ∧ st'.size + 1 = st.size ∧ get hash st' k = .ok none ∧
      ∀ k', k' ≠ k → get hash st' k' = get hash st k' := by
  obtain ⟨st0, h1, h2⟩ := run_ok ops (Rep.init hash) (by omega) ha
  rw [h1] at hrun
  injection hrun with hrun
  injection hrun with hrun _
  subst hrun
  have hget : st0.entries[i]? = some (some (k, v)) := by
    unfold entryAt at he
    cases hx : st0.entries[i]? with
    | none => rw [hx] at he; cases he
    | some o =>
      cases o with
      | none => rw [hx] at he; cases he
      | some e => rw [hx] at he; injection he with he; rw [he]
  obtain ⟨st', h3, h4⟩ := eraseAt_rep h2 hget
  have hnd := h2.nodup
  generalize (specRun d [] ops).1 = m at *
  refine ⟨st', h3, ?_, ?_, fun k' hk' => ?_⟩
  · obtain ⟨hs, hne⟩ := h2.split hget
    obtain ⟨S, hi, hp⟩ := h2
    obtain ⟨S', hi', hp'⟩ := h4
    have := hs.filter fun e => decide (e.1 ≠ k)
    rw [List.filter_cons_of_neg (by simp), filter_ne hne] at this
    rw [hi'.size, hi.size, hp'.length_eq, hp.length_eq, hs.length_eq, this.length_eq]; rfl
  · rw [h4.get, lookup_none]
    intro e he'
    simpa using (List.mem_filter.1 he').2
  · rw [h4.get, h2.get]
    congr 1
    have hnd' := h4.nodup
    cases hl : lookup m k' with
    | some v' =>
      exact lookup_some hnd' (List.mem_filter.2 ⟨mem_of_lookup hl, by simpa using hk'⟩)
    | none =>
      refine lookup_none fun e he' hk'' => ?_
      have hm := (List.mem_filter.1 he').1
      have := lookup_some hnd (k := e.1) (v := e.2) hm
      rw [hk'', hl] at this; cases this

/-- **C32** Lookups examine at most `capacity() + 1` groups: any larger bound gives the same answer, on every reachable table. -/
theorem C32_find_terminates (hash : K → Nat) (d : V) (ops : List (Op K V)) (hlen : ops.length < 2 ^ 60) (ha : Allowed d [] ops)
    {st : HS K V} {outs : List (Out V)} (hrun : run hash d HS.init ops = .ok (st, outs)) (k : K) :
    ∃ r, ∀ fuel, st.cap < fuel → findN hash fuel st k = .ok r := by
  obtain ⟨st0, h1, S, hi, hp⟩ := run_ok ops (Rep.init hash) (by omega) ha
  rw [h1] at hrun
  injection hrun with hrun
  injection hrun with hrun _
  subst hrun
  obtain ⟨t, ht⟩ := hi.lay
  rcases hi.find_cases k with ⟨i, v, _, h2, _⟩ | ⟨_, h2⟩
  · exact ⟨some i, fun f hf => findN_present ht hi.cap hi.core h2 (hi.hasEmpty _) hf⟩
  · exact ⟨none, fun f hf => findN_absent ht hi.cap hi.core (fun i e he => h2 e (mem_live.2 ⟨i, he⟩)) (hi.hasEmpty _) hf⟩

/-- **C32** Insertion and erasure terminate (the model reports divergence as an error) on every reachable table. -/
theorem C32_insert_erase_terminate (hash : K → Nat) (d : V) (ops : List (Op K V)) (hlen : ops.length + 1 < 2 ^ 60) (ha : Allowed d [] ops)
    {st : HS K V} {outs : List (Out V)} (hrun : run hash d HS.init ops = .ok (st, outs)) (e : K × V) :
    (emplace hash st e).isOk = true ∧ (erase hash st e.1).isOk = true := by
  obtain ⟨st0, h1, h2⟩ := run_ok ops (Rep.init hash) (by omega) ha
  rw [h1] at hrun
  injection hrun with hrun
  injection hrun with hrun _
  subst hrun
  have hr := h2
  obtain ⟨S, hi, hp⟩ := h2
  rcases hr.cases e.1 with ⟨i, v', h3, h4, h5⟩ | ⟨h3, h4, h5⟩
  · obtain ⟨st', he, _⟩ := eraseAt_rep hr h4
    rw [emplace_present hi h4]
    refine ⟨rfl, ?_⟩
    simp only [erase, h3, ok_bind, he]; rfl
  · obtain ⟨st', S', i, he, _⟩ := emplace_absent hi (by omega) (e := e) h4
    rw [he]
    refine ⟨rfl, ?_⟩
    simp only [erase, h3, ok_bind]; rfl

/-- **C33** Iteration visits every entry exactly once and nothing else. -/
theorem C33_iteration (hash : K → Nat) (d : V) (ops : List (Op K V)) (hlen : ops.length < 2 ^ 60) (ha : Allowed d [] ops)
    {st : HS K V} {outs : List (Out V)} (hrun : run hash d HS.init ops = .ok (st, outs)) :
    ∃ es, iterate st = .ok es ∧ es.Perm (specRun d [] ops).1 := by
  obtain ⟨st0, h1, S, hi, hp⟩ := run_ok ops (Rep.init hash) (by omega) ha
  rw [h1] at hrun
  injection hrun with hrun
  injection hrun with hrun _
  subst hrun
  exact ⟨_, iterate_ok hi, hp⟩

theorem perm_of_subset {α : Type} [DecidableEq α] : ∀ {a b : List α}, a.Nodup → a ⊆ b → b.length ≤ a.length → b.Perm a
  | [], b, _, _, h => by
    have : b = [] := List.eq_nil_of_length_eq_zero (by simpa using h)
    rw [this]
  | x :: a, b, hn, hs, hl => by
    rw [List.nodup_cons] at hn
    have hx : x ∈ b := hs (by simp)
    have hp := List.perm_cons_erase hx
    refine hp.trans (List.Perm.cons x ?_)
    refine perm_of_subset hn.2 (fun y hy => ?_) ?_
    · have hne : y ≠ x := fun h => hn.1 (h ▸ hy)
      exact (List.mem_erase_of_ne hne).2 (hs (by simp [hy]))
    · have := hp.length_eq
      simp only [List.length_cons] at this hl
      omega

theorem eqLoop_ok [DecidableEq V] {hash : K → Nat} {N : Nat} {b : HS K V} {m : List (K × V)} (h : Rep hash N b m) :
    ∀ es : List (K × V), eqLoop hash b es = .ok (decide (∀ e ∈ es, e ∈ m))
  | [] => by simp [eqLoop]
  | e :: es => by
    unfold eqLoop
    rw [h.get e.1, ok_bind]
    cases hl : lookup m e.1 with
    | none =>
      have : ¬ (∀ x ∈ e :: es, x ∈ m) := fun hall => by
        have := lookup_some h.nodup (k := e.1) (v := e.2) (hall e (by simp))
        rw [hl] at this; cases this
      simp only [this, decide_false]
    | some v =>
      dsimp only
      by_cases hv : v = e.2
      · rw [if_pos hv, eqLoop_ok h es]
        have hm : e ∈ m := by have := mem_of_lookup hl; rw [hv] at this; exact this
        congr 1
        exact decide_eq_decide.2 (by simp [hm])
      · rw [if_neg hv]
        have : ¬ (∀ x ∈ e :: es, x ∈ m) := fun hall => by
          have := lookup_some h.nodup (k := e.1) (v := e.2) (hall e (by simp))
          rw [hl] at this; injection this with this; exact hv this
        simp only [this, decide_false]

/-- **C33** Two maps, each built by any history, compare equal exactly if every key has the same value in both. -/
theorem C33_equality [DecidableEq V] (hash : K → Nat) (d : V) (opsa opsb : List (Op K V)) (hla : opsa.length < 2 ^ 60)
    (hlb : opsb.length < 2 ^ 60) (ha : Allowed d [] opsa) (hb : Allowed d [] opsb) {a b : HS K V} {oa ob : List (Out V)}
    (hra : run hash d HS.init opsa = .ok (a, oa)) (hrb : run hash d HS.init opsb = .ok (b, ob)) :
    ∃ r, eq hash a b = .ok r ∧ (r = true ↔ ∀ k, lookup (specRun d [] opsa).1 k = lookup (specRun d [] opsb).1 k) := by
  obtain ⟨a', h1, h2⟩ := run_ok opsa (Rep.init hash) (by omega) ha
  rw [h1] at hra; injection hra with hra; injection hra with hra _; subst hra
  obtain ⟨b', h3, h4⟩ := run_ok opsb (Rep.init hash) (by omega) hb
  rw [h3] at hrb; injection hrb with hrb; injection hrb with hrb _; subst hrb
  generalize (specRun d [] opsa).1 = ma at *
  generalize (specRun d [] opsb).1 = mb at *
  have hna := h2.nodup
  have hnb := h4.nodup
  have hna' : ma.Nodup := List.Pairwise.of_map Prod.fst (fun _ _ h1 h2 => h1 (congrArg Prod.fst h2)) hna
  have hnb' : mb.Nodup := List.Pairwise.of_map Prod.fst (fun _ _ h1 h2 => h1 (congrArg Prod.fst h2)) hnb
  have hb4 := h4
  obtain ⟨Sa, hia, hpa⟩ := h2
  obtain ⟨Sb, hib, hpb⟩ := h4
  have hsa : a'.size = ma.length := by rw [hia.size, hpa.length_eq]
  have hsb : b'.size = mb.length := by rw [hib.size, hpb.length_eq]
  unfold HS.eq
  -- the same lookups make the lists permutations
  have hsub : ∀ {x y : List (K × V)}, (x.map Prod.fst).Nodup → (∀ k, lookup x k = lookup y k) → x ⊆ y := by
    intro x y hx hk e he
    have := lookup_some hx (k := e.1) (v := e.2) he
    rw [hk] at this
    exact mem_of_lookup this
  have hlen : ∀ {x y : List (K × V)}, x.Nodup → y.Nodup → x ⊆ y → x.length ≤ y.length := by
    intro x
    induction x with
    | nil => intro y _ _ _; simp
    | cons e x ih =>
      intro y hx hy hs
      rw [List.nodup_cons] at hx
      have he : e ∈ y := hs (by simp)
      have := ih hx.2 (List.Nodup.erase e hy) (fun z hz => (List.mem_erase_of_ne (fun h : z = e => hx.1 (h ▸ hz))).2 (hs (by simp [hz])))
      rw [List.length_erase_of_mem he] at this
      have := List.length_pos_of_mem he
      simp only [List.length_cons]; omega
  by_cases hs : a'.size = b'.size
  · rw [if_neg (by simpa using hs), iterate_ok hia, ok_bind, eqLoop_ok hb4]
    refine ⟨_, rfl, ?_⟩
    rw [decide_eq_true_eq]
    constructor
    · intro hall
      have hsubm : ma ⊆ mb := fun e he => hall e (hpa.mem_iff.2 he)
      have hperm := perm_of_subset hna' hsubm (by omega)
      intro k
      cases hl : lookup ma k with
      | some v => exact (lookup_some hnb (hperm.mem_iff.2 (mem_of_lookup hl))).symm
      | none =>
        refine (lookup_none fun e he hk => ?_).symm
        have := lookup_some hna (k := e.1) (v := e.2) (hperm.mem_iff.1 he)
        rw [hk, hl] at this; cases this
    · intro hk e he
      exact hsub hna hk (hpa.mem_iff.1 he)
  · rw [if_pos hs]
    refine ⟨false, rfl, ?_⟩
    constructor
    · intro h; cases h
    · intro hk
      have h5 := hlen hna' hnb' (hsub hna hk)
      have h6 := hlen hnb' hna' (hsub hnb fun k => (hk k).symm)
      omega

/-- Twenty keys that all collide, erasures and re-insertions. -/
def exOps : List (Op Nat Nat) :=
  (List.range 20).map (fun i => Op.emplace i (10 * i)) ++ [.erase 3, .erase 7, .assign 5 1, .emplace 5 2, .atKey 7, .bracket 30, .rehash, .copy, .size]

example : (run (fun _ => 0) 0 HS.init exOps).map (fun r => r.2.drop 20) = .ok [.count 1, .count 1, .none, .inserted 1 false, .threw,
    .value (some 0), .none, .none, .count 19] := by decide +kernel

example : Allowed 0 [] exOps := by
  simp only [Allowed, exOps, List.range_succ, List.range_zero]
  simp [Allowed, Op.Pre, Op.spec, lookup]

/-- **C31** violated: `rehash()` on an empty map allocates a block that is never released. -/
theorem C31_rehash_violated (hash : K → Nat) (d : V) :
    ∃ st, rehash hash (HS.init : HS K V) = .ok st ∧ destroy st = .error .leak ∧ ∀ e, emplace hash st e = .error .leak := by
  refine ⟨⟨freshCtrl 0, [], 0, 0, 0, true, true⟩, by
    simp [rehash, resize, moveLoop, HS.init, growthOf, ok_bind], by simp [destroy, clear, ok_bind], fun e => ?_⟩
  have hff : ∀ h, findFirst (freshCtrl 0) 0 h = .ok 0 := by
    intro h
    have := findFirst_full (S := []) [] pcap_zero (fun c hc => by simp at hc) h (by simp) (fun c hc => by simp at hc)
    rw [List.append_nil] at this
    exact this
  have hfind : find hash (⟨freshCtrl 0, [], 0, 0, 0, true, true⟩ : HS K V) e.1 = .ok none :=
    findN_absent (S := []) (t := []) (by rfl) rfl (Core.fresh hash (cap := 0) pcap_zero) (by simp)
      (hasEmpty_of (S := []) pcap_zero _ (Or.inr (by simp))) (Nat.lt_succ_self _)
  unfold emplace findOrPrepare
  rw [hfind]
  simp only [ok_bind, prepareInsert, hff]
  have hc : ctrlAt (freshCtrl 0) 0 = .ok END := by decide
  rw [hc]
  simp only [ok_bind]
  rw [if_pos ⟨trivial, by decide⟩]
  simp [grow, resize, moveLoop, ok_bind, error_bind]

/-- **C31** violated: move assignment does not release the storage of the assigned map: it leaks if the map has elements or owns an
array (even if all its elements were erased), and only if. -/
theorem C31_move_assign_violated {hash : K → Nat} {N : Nat} {st : HS K V} {m : List (K × V)} (h : Rep hash N st m) (o : HS K V) :
    ((m ≠ [] ∨ st.cap ≠ 0 ∧ st.self = true) → moveAssign st o = .error .leak) ∧
    (¬ (m ≠ [] ∨ st.cap ≠ 0 ∧ st.self = true) → moveAssign st o = .ok (o, HS.init)) := by
  obtain ⟨S, hi, hp⟩ := h
  have hb : st.block = true ↔ st.cap ≠ 0 := by rw [hi.blk]; simp
  have hany : st.entries.any Option.isSome = true ↔ m ≠ [] := by
    constructor
    · intro ha hm
      subst hm
      obtain ⟨x, hx, hs⟩ := List.any_eq_true.1 ha
      obtain ⟨e, rfl⟩ := Option.isSome_iff_exists.1 hs
      have : e ∈ live st.entries := by simpa [live] using hx
      rw [hp.mem_iff] at this
      cases this
    · intro hm
      obtain ⟨e, he⟩ := List.exists_mem_of_ne_nil m hm
      obtain ⟨i, hi'⟩ := mem_live.1 (hp.mem_iff.2 he)
      rw [List.any_eq_true]
      exact ⟨_, List.mem_of_getElem? hi', rfl⟩
  unfold moveAssign
  constructor
  · intro hc
    rw [if_pos]
    rcases hc with hc | hc
    · exact .inr (hany.2 hc)
    · exact .inl ⟨hb.2 hc.1, hc.2⟩
  · intro hc
    rw [if_neg]
    rintro (h | h)
    · exact hc (.inr ⟨hb.1 h.1, h.2⟩)
    · exact hc (.inl (hany.1 h))

example : (do
    let r ← emplace (fun n : Nat => n) (HS.init : HS Nat Nat) (1, 2)
    let r ← erase (fun n : Nat => n) r.1 1
    moveAssign r.1 HS.init) = .error .leak := by
  decide +kernel

/-- **C31**: move assignment to an empty, never filled map transfers the map. -/
theorem C31_move_assign_partial (o : HS K V) : moveAssign HS.init o = .ok (o, HS.init) := rfl

example : (emplace (fun n : Nat => n) (HS.init : HS Nat Nat) (1, 2)).bind (fun r => moveAssign r.1 HS.init) = .error .leak := by
  decide +kernel

/-- **C31**: copy assignment replaces the contents by those of the source. -/
theorem C31_copy_assign {hash : K → Nat} {N M : Nat} {st o : HS K V} {m m' : List (K × V)} (h : Rep hash N st m) (ho : Rep hash M o m')
    (hM : M < 2 ^ 60) : ∃ st', copyAssign hash st o = .ok st' ∧ Rep hash M st' m' := by
  obtain ⟨S, hi, hp⟩ := h
  obtain ⟨S', hi', hp'⟩ := ho
  obtain ⟨st1, S1, hc, hi1, hl, _, _⟩ := clear_ok hi
  unfold copyAssign
  rw [hc, ok_bind]
  by_cases h0 : o.size = 0
  · rw [if_pos h0]
    refine ⟨st1, rfl, S1, hi1.mono (by omega), ?_⟩
    have : live o.entries = [] := List.eq_nil_of_length_eq_zero (by rw [← hi'.size]; exact h0)
    rw [hl]; rw [this] at hp'; exact hp'
  · rw [if_neg h0, iterate_ok hi', ok_bind]
    have hlen := hi'.size
    have hb := hi'.bnd
    obtain ⟨st2, S2, h1, h2, h3, _⟩ := insertAll_ok (es := live o.entries) hi1 (by omega) hi'.nodup
      (by intro e _ f hf; rw [hl] at hf; simp at hf)
    refine ⟨st2, h1, S2, h2.mono (by omega), ?_⟩
    rw [hl, List.append_nil] at h3
    exact h3.trans hp'

end Cista.HS

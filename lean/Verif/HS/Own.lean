import Verif.HS.Iter

set_option linter.unusedSimpArgs false

/-!
# C141 — hash tables that are given references to their own keys and values

`m[m.at(b)]`, `m[k] = m.at(b)` (the right operand is evaluated first), `m.emplace(k, m.at(b))`, `m.erase(m.at(b))`, and the same
with the key of an entry.  Keys and values have the same type here.  A reference designates a part of the entry in a slot of the
array; after the array was replaced (`resize`, hash_storage.h:611-634, which is only called to enlarge it here) it dangles.
-/
namespace Cista.HS

variable {K : Type} [DecidableEq K]

/-- The part of an entry that is referred to. -/
def pick (key : Bool) (e : K × K) : K := if key then e.1 else e.2

/-- Reading through a reference into slot `i` of the table in state `st`, after the table has become `st1`. -/
def deref (key : Bool) (st st1 : HS K K) (i : Nat) : Res K :=
  if st1.cap = st.cap then do
    let e ← entryAt st1.entries i
    .ok (pick key e)
  else .error .ub

/-- Calls; `b` is the key of the entry that is referred to, found with `at` or `find` first (an exception if there is none). -/
inductive ROp (K : Type) where
  | plain (op : Op K K)
  | bracket (key : Bool) (b : K)
  | assign (k : K) (key : Bool) (b : K)
  | emplace (k : K) (key : Bool) (b : K)
  | erase (key : Bool) (b : K)

/-- The entry `b`: its slot. -/
def withRef (hash : K → Nat) (st : HS K K) (b : K) (f : Nat → K × K → Res (HS K K × Out K)) : Res (HS K K × Out K) := do
  let r ← find hash st b
  match r with
  | none => .ok (st, .threw)
  | some i => do
    let e ← entryAt st.entries i
    f i e

/-- hash_storage.h:318-324: `operator[]` reads its argument while it searches, and again for the new entry, after making room;
442-449: `emplace` copies its arguments first; 418-437: `erase` reads its argument before the entry is destroyed. -/
def ROp.exec (hash : K → Nat) (d : K) (st : HS K K) : ROp K → Res (HS K K × Out K)
  | .plain op => op.exec hash d st
  | .bracket key b => withRef hash st b fun i e => do
    let p ← findOrPrepare hash st (pick key e)
    if p.2.2 then do
      let k ← deref key st p.1 i
      let es ← construct p.1.entries p.2.1 (k, d)
      let e' ← entryAt es p.2.1
      .ok ({ p.1 with entries := es }, .value (some e'.2))
    else do
      let e' ← entryAt p.1.entries p.2.1
      .ok (p.1, .value (some e'.2))
  | .assign k key b => withRef hash st b fun i _ => do
    let r ← HS.bracket hash d st k
    let v ← deref key st r.1 i
    let st' ← assignAt r.1 r.2 v
    .ok (st', .none)
  | .emplace k key b => withRef hash st b fun _ e => (Op.emplace k (pick key e)).exec hash d st
  | .erase key b => withRef hash st b fun _ e => (Op.erase (pick key e)).exec hash d st

/-- The call with a copy of what is referred to; none: there is no entry `b`. -/
def ROp.copied (m : List (K × K)) : ROp K → Option (Op K K)
  | .plain op => some op
  | .bracket key b => (lookup m b).map fun v => .bracket (pick key (b, v))
  | .assign k key b => (lookup m b).map fun v => .assign k (pick key (b, v))
  | .emplace k key b => (lookup m b).map fun v => .emplace k (pick key (b, v))
  | .erase key b => (lookup m b).map fun v => .erase (pick key (b, v))

/-- What a finite map does. -/
def ROp.spec (d : K) (m : List (K × K)) (op : ROp K) : List (K × K) × Out K :=
  match op.copied m with
  | none => (m, .threw)
  | some op => op.spec d m

/-- Does the call insert an entry with `operator[]` although a reference is still to be read? -/
def ROp.late (m : List (K × K)) : ROp K → Bool
  | .bracket key b => match lookup m b with
    | none => false
    | some v => (lookup m (pick key (b, v))).isNone
  | .assign k _ _ => (lookup m k).isNone
  | _ => false

/-- The calls of `operator[]`. -/
def ROp.bracketed : ROp K → Bool
  | .bracket _ _ | .assign _ _ _ => true
  | _ => false

/-! ## Proof -/

omit [DecidableEq K] in
theorem entryAt_eq {es : List (Option (K × K))} {i : Nat} {e : K × K} : entryAt es i = .ok e ↔ es[i]? = some (some e) := by
  unfold entryAt
  constructor
  · intro h
    split at h
    · injection h with h; rw [← h]; assumption
    · cases h
  · intro h; rw [h]

/-- The array is replaced by a larger one, or stays as it is. -/
theorem prepare_same {hash : K → Nat} {st p : HS K K} {h t : Nat} (e : prepareInsert hash st h = .ok (p, t)) (hc : p.cap = st.cap) :
    p.entries = st.entries := by
  unfold prepareInsert at e
  obtain ⟨t0, _, e⟩ := bind_inv e
  obtain ⟨c, _, e⟩ := bind_inv e
  split at e
  · obtain ⟨st1, h1, e⟩ := bind_inv e
    obtain ⟨t1, _, e⟩ := bind_inv e
    obtain ⟨hcap, _, _⟩ := takeSlot_inv e
    unfold grow resize at h1
    obtain ⟨s, _, h1⟩ := bind_inv h1
    split at h1
    · cases h1
    · injection h1 with h1
      rw [← h1] at hcap
      dsimp only at hcap
      split at hcap <;> omega
  · exact (takeSlot_inv e).2.1

theorem withRef_some {hash : K → Nat} {N : Nat} {st : HS K K} {S : List Nat} (h : Inv hash N st S) {b v : K} {i : Nat}
    (he : st.entries[i]? = some (some (b, v))) (f : Nat → K × K → Res (HS K K × Out K)) : withRef hash st b f = f i (b, v) := by
  unfold withRef
  rw [h.find_some he, ok_bind]
  dsimp only
  rw [entryAt_eq.2 he, ok_bind]

/-- One call with a reference is the call with a copy, unless the array was replaced before the reference is read. -/
theorem rexec_eq {hash : K → Nat} {d : K} {N : Nat} {st st' : HS K K} {m : List (K × K)} {S : List Nat} {o : Out K} (hi : Inv hash N st S)
    (hp : (live st.entries).Perm m) {rop : ROp K} {op : Op K K} (hc : rop.copied m = some op) (h : op.exec hash d st = .ok (st', o)) :
    (rop.bracketed = false ∨ st'.cap = st.cap → rop.exec hash d st = .ok (st', o)) ∧
    (rop.bracketed = true → st'.cap ≠ st.cap → rop.exec hash d st = .error .ub) := by
  have hr : Rep hash N st m := ⟨S, hi, hp⟩
  have present : ∀ {b : K} {f : K → Op K K}, ((lookup m b).map f) = some op →
      ∃ (i : Nat) (v : K), st.entries[i]? = some (some (b, v)) ∧ op = f v := by
    intro b f hb
    obtain ⟨v, hv, hf⟩ := Option.map_eq_some_iff.1 hb
    rcases hr.cases b with ⟨i, v', h1, h2, h3⟩ | ⟨h1, h2, h3⟩
    · rw [h3] at hv; injection hv with hv; subst hv
      exact ⟨i, v', h2, hf.symm⟩
    · rw [h3] at hv; cases hv
  cases rop with
  | plain op' =>
    injection hc with hc
    subst hc
    exact ⟨fun _ => h, nofun⟩
  | emplace k key b =>
    obtain ⟨i, v, he, rfl⟩ := present hc
    exact ⟨fun _ => by rw [ROp.exec, withRef_some hi he]; exact h, nofun⟩
  | erase key b =>
    obtain ⟨i, v, he, rfl⟩ := present hc
    exact ⟨fun _ => by rw [ROp.exec, withRef_some hi he]; exact h, nofun⟩
  | bracket key b =>
    obtain ⟨i, v, he, rfl⟩ := present hc
    simp only [Op.exec] at h
    obtain ⟨r, hb, h⟩ := bind_inv h
    obtain ⟨e', he', h⟩ := bind_inv h
    injection h with h
    injection h with h ho
    subst h ho
    unfold HS.bracket at hb
    obtain ⟨p, hpr, hb⟩ := bind_inv hb
    rw [ROp.exec, withRef_some hi he, hpr, ok_bind]
    by_cases hins : p.2.2 = true
    · rw [if_pos hins] at hb ⊢
      obtain ⟨es, hes, hb⟩ := bind_inv hb
      injection hb with hb
      subst hb
      dsimp only at he' ⊢
      refine ⟨fun hcap => ?_, fun _ hcap => ?_⟩
      · have hcap : p.1.cap = st.cap := by rcases hcap with hcap | hcap; exact nomatch hcap; exact hcap
        have hent : p.1.entries = st.entries := by
          unfold findOrPrepare at hpr
          obtain ⟨r0, _, hpr⟩ := bind_inv hpr
          split at hpr
          · injection hpr with hpr; rw [← hpr]
          · obtain ⟨q, hq, hpr⟩ := bind_inv hpr
            injection hpr with hpr
            subst hpr
            exact prepare_same (t := q.2) hq hcap
        unfold deref
        rw [if_pos hcap, hent, entryAt_eq.2 he, ok_bind, ok_bind, ← hent, hes, ok_bind, he', ok_bind]
      · unfold deref
        rw [if_neg hcap]
        rfl
    · rw [if_neg hins] at hb ⊢
      obtain ⟨_, _, hb⟩ := bind_inv hb
      injection hb with hb
      subst hb
      dsimp only at he' ⊢
      have hst : p.1 = st := by
        unfold findOrPrepare at hpr
        obtain ⟨r0, _, hpr⟩ := bind_inv hpr
        split at hpr
        · injection hpr with hpr; rw [← hpr]
        · obtain ⟨q, hq, hpr⟩ := bind_inv hpr
          injection hpr with hpr
          rw [← hpr] at hins
          exact (hins rfl).elim
      exact ⟨fun _ => by rw [he', ok_bind], fun _ hcap => (hcap (by rw [hst])).elim⟩
  | assign k key b =>
    obtain ⟨i, v, he, rfl⟩ := present hc
    simp only [Op.exec] at h
    obtain ⟨r, hb, h⟩ := bind_inv h
    obtain ⟨st2, has, h⟩ := bind_inv h
    injection h with h
    injection h with h ho
    subst h ho
    have hcap2 : st2.cap = r.1.cap := by
      unfold assignAt at has
      obtain ⟨_, _, has⟩ := bind_inv has
      injection has with has
      rw [← has]
    rw [ROp.exec, withRef_some hi he, hb, ok_bind, hcap2]
    refine ⟨fun hcap => ?_, fun _ hcap => ?_⟩
    · have hcap : r.1.cap = st.cap := by rcases hcap with hcap | hcap; exact nomatch hcap; exact hcap
      have hent : r.1.entries[i]? = some (some (b, v)) := by
        unfold HS.bracket findOrPrepare at hb
        obtain ⟨p, hpr, hb⟩ := bind_inv hb
        obtain ⟨r0, _, hpr⟩ := bind_inv hpr
        split at hpr
        · injection hpr with hpr
          subst hpr
          rw [if_neg Bool.false_ne_true] at hb
          obtain ⟨_, _, hb⟩ := bind_inv hb
          injection hb with hb
          subst hb
          exact he
        · obtain ⟨q, hq, hpr⟩ := bind_inv hpr
          injection hpr with hpr
          subst hpr
          rw [if_pos rfl] at hb
          obtain ⟨es, hes, hb⟩ := bind_inv hb
          injection hb with hb
          subst hb
          dsimp only at hcap hes ⊢
          have hq' := prepare_same (t := q.2) hq hcap
          obtain ⟨c1, c2⟩ := construct_inv hes
          rw [hq'] at c1 c2
          have hne : q.2 ≠ i := by rintro rfl; rw [he] at c1; cases c1
          rw [c2, List.getElem?_set_ne hne]
          exact he
      unfold deref
      rw [if_pos hcap, entryAt_eq.2 hent, ok_bind, ok_bind, has, ok_bind]
    · unfold deref
      rw [if_neg hcap]
      rfl

def rrun (hash : K → Nat) (d : K) : HS K K → List (ROp K) → Res (HS K K × List (Out K))
  | st, [] => .ok (st, [])
  | st, op :: ops => do
    let r ← op.exec hash d st
    let s ← rrun hash d r.1 ops
    .ok (s.1, r.2 :: s.2)

def rspec (d : K) : List (K × K) → List (ROp K) → List (K × K) × List (Out K)
  | m, [] => (m, [])
  | m, op :: ops => ((rspec d (op.spec d m).1 ops).1, (op.spec d m).2 :: (rspec d (op.spec d m).1 ops).2)

/-- `rehash()` only on a map with entries (C31); and `operator[]` with a reference to an own part, or as target of an assignment from one, only
while `growth_left_` is not 0 or when it inserts nothing. -/
def Roomy (hash : K → Nat) (d : K) (st : HS K K) (m : List (K × K)) : List (ROp K) → Prop
  | [] => True
  | op :: ops => (∀ o, op.copied m = some o → o.Pre m) ∧ (op.late m = true → st.growth ≠ 0) ∧
    ∀ st' o, op.exec hash d st = .ok (st', o) → Roomy hash d st' (op.spec d m).1 ops

theorem rrun_ok {hash : K → Nat} {d : K} : ∀ (ops : List (ROp K)) {N : Nat} {st : HS K K} {m : List (K × K)} {S : List Nat},
    Inv hash N st S → (live st.entries).Perm m → N + ops.length < 2 ^ 60 → Roomy hash d st m ops →
    ∃ st' S', rrun hash d st ops = .ok (st', (rspec d m ops).2) ∧ Inv hash (N + ops.length) st' S' ∧ (live st'.entries).Perm (rspec d m ops).1 := by
  intro ops
  induction ops with
  | nil => intro N st m S h hp _ _; exact ⟨st, S, rfl, h, hp⟩
  | cons op ops ih =>
    intro N st m S h hp hN hR
    rw [List.length_cons] at hN
    obtain ⟨hpre, hroom, hrest⟩ := hR
    have step : ∃ st1 S1, op.exec hash d st = .ok (st1, (op.spec d m).2) ∧ Inv hash (N + 1) st1 S1 ∧ (live st1.entries).Perm (op.spec d m).1 := by
      cases hc : op.copied m with
      | none =>
        have hthrow : ∀ b, lookup m b = none → ∀ f, withRef hash st b f = .ok (st, .threw) := by
          intro b hb f
          rcases Rep.cases (hash := hash) (N := N) (st := st) (m := m) ⟨S, h, hp⟩ b with ⟨i, v', h1, h2, h3⟩ | ⟨h1, h2, h3⟩
          · rw [h3] at hb; cases hb
          · unfold withRef
            rw [h.find_none h2, ok_bind]
        refine ⟨st, S, ?_, h.mono (by omega), ?_⟩
        · cases op with
          | plain op => cases hc
          | bracket key b => rw [ROp.exec, hthrow b (by simpa [ROp.copied] using hc)]; simp [ROp.spec, hc]
          | assign k key b => rw [ROp.exec, hthrow b (by simpa [ROp.copied] using hc)]; simp [ROp.spec, hc]
          | emplace k key b => rw [ROp.exec, hthrow b (by simpa [ROp.copied] using hc)]; simp [ROp.spec, hc]
          | erase key b => rw [ROp.exec, hthrow b (by simpa [ROp.copied] using hc)]; simp [ROp.spec, hc]
        · rw [ROp.spec, hc]; exact hp
      | some o =>
        obtain ⟨st1, S1, e1, i1, p1, _⟩ := exec_ok (d := d) h hp (by omega) (hpre o hc)
        refine ⟨st1, S1, ?_, i1, by rw [ROp.spec, hc]; exact p1⟩
        rw [ROp.spec, hc]
        refine (rexec_eq h hp hc e1).1 ?_
        cases hl : op.bracketed with
        | false => exact Or.inl rfl
        | true =>
          right
          have hr : Rep hash N st m := ⟨S, h, hp⟩
          have hk : o.keeps = true ∧ (op.late m = false → st1 = st ∨ st1.cap = st.cap) := by
            cases op with
            | bracket key b =>
              obtain ⟨v, hv, rfl⟩ := Option.map_eq_some_iff.1 hc
              refine ⟨rfl, fun hl => ?_⟩
              rcases hr.cases (pick key (b, v)) with ⟨i, w, _, h2, _⟩ | ⟨_, _, h3⟩
              · simp only [Op.exec] at e1
                rw [bracket_present h d h2, ok_bind] at e1
                obtain ⟨_, _, e1⟩ := bind_inv e1
                injection e1 with e1
                injection e1 with e1
                exact Or.inl e1.symm
              · simp [ROp.late, hv, h3] at hl
            | assign k key b =>
              obtain ⟨v, hv, rfl⟩ := Option.map_eq_some_iff.1 hc
              refine ⟨rfl, fun hl => ?_⟩
              rcases hr.cases k with ⟨i, w, _, h2, _⟩ | ⟨_, _, h3⟩
              · simp only [Op.exec] at e1
                rw [bracket_present h d h2, ok_bind] at e1
                obtain ⟨s2, e2, e1⟩ := bind_inv e1
                injection e1 with e1
                injection e1 with e1
                subst e1
                unfold assignAt at e2
                obtain ⟨_, _, e2⟩ := bind_inv e2
                injection e2 with e2
                rw [← e2]
                exact Or.inr rfl
              · simp [ROp.late, h3] at hl
            | _ => cases hl
          cases hl' : op.late m with
          | true => exact ((exec_inv h (by omega) hk.1 e1).1.room (hroom hl')).1
          | false =>
            rcases hk.2 hl' with h0 | h0
            · rw [h0]
            · exact h0
    obtain ⟨st1, S1, e1, i1, p1⟩ := step
    obtain ⟨st2, S2, e2, i2, p2⟩ := ih i1 p1 (by omega) (hrest _ _ e1)
    refine ⟨st2, S2, ?_, by rw [List.length_cons, show N + (ops.length + 1) = N + 1 + ops.length by omega]; exact i2, p2⟩
    simp only [rrun, rspec, e1, ok_bind, e2]

/-- **C141**: histories on one hash table whose calls may refer to keys and values of the table itself have the effects and results of the
same calls with copies, on a finite map, as long as `operator[]` is given such a reference, or is the target of an assignment from one,
only while there is room or when it finds the key.  Missing: without room `operator[]` reads the reference after the array is freed (below). -/
theorem C141_history_partial (hash : K → Nat) (d : K) (ops : List (ROp K)) (hN : ops.length < 2 ^ 60)
    (hR : Roomy hash d (.init (K := K) (V := K)) [] ops) :
    ∃ st' : HS K K, rrun hash d .init ops = .ok (st', (rspec d [] ops).2) ∧ (live st'.entries).Perm (rspec d [] ops).1 := by
  obtain ⟨st', _, e, _, p⟩ := rrun_ok ops (Inv.init hash false) (by simp [HS.init, live]) (by simpa using hN) hR
  exact ⟨st', e, p⟩

/-- **C141** (violated): whenever `m[x]` with a copy of what `x` refers to would enlarge the table, `m[x]` with the reference reads the freed
array; and so does `m[k] = x` whenever `m[k]` enlarges the table. -/
theorem C141_dangling_violated (hash : K → Nat) (d : K) (ops : List (ROp K)) (hN : ops.length < 2 ^ 60)
    (hR : Roomy hash d (.init (K := K) (V := K)) [] ops) {st st' : HS K K} {os : List (Out K)} (hst : rrun hash d .init ops = .ok (st, os))
    {rop : ROp K} {op : Op K K} {o : Out K} (hl : rop.bracketed = true) (hc : rop.copied (rspec d [] ops).1 = some op)
    (h : op.exec hash d st = .ok (st', o)) (hcap : st'.cap ≠ st.cap) : rop.exec hash d st = .error .ub := by
  obtain ⟨st1, S, e, i, p⟩ := rrun_ok ops (Inv.init hash false) (by simp [HS.init, live]) (by simpa using hN) hR
  have e : rrun hash d .init ops = .ok (st1, (rspec d [] ops).2) := e
  rw [hst] at e
  injection e with e
  injection e with e _
  subst e
  exact (rexec_eq i p hc h).2 hl hcap

/-- **C141** (violated): in every table with the single entry `k ↦ v`, `m[m.at(k)]` with `v ≠ k` is undefined, and so is `m[x] = m.at(k)` with
`x ≠ k`. -/
theorem C141_single_violated (hash : K → Nat) (d k v x : K) (hx : x ≠ k) (hv : v ≠ k) :
    rrun hash d .init [.plain (.emplace k v), .bracket false k] = .error .ub ∧
    rrun hash d .init [.plain (.emplace k v), .assign x false k] = .error .ub := by
  have hi0 : Inv hash 0 (.init : HS K K) [] := Inv.init hash false
  have hp0 : (live (.init : HS K K).entries).Perm [] := by simp [HS.init, live]
  obtain ⟨st, S, e, i, p, _⟩ := exec_ok (d := d) (op := .emplace k v) hi0 hp0 (by omega) trivial
  have hm : (Op.spec d [] (.emplace k v)).1 = [(k, v)] := rfl
  have hcap : st.cap ≤ 1 := by
    rcases (exec_inv hi0 (by omega) rfl e).1.cap with h | h <;> simp only [HS.init] at h <;> omega
  rw [hm] at p
  have big : ∀ {N : Nat} {st' : HS K K} {S' : List Nat} {m : List (K × K)}, Inv hash N st' S' → (live st'.entries).Perm m → 2 ≤ m.length →
      st'.cap ≠ st.cap := by
    intro N st' S' m i' p' h2 hc
    have := p'.length_eq
    have : (live st'.entries).length ≤ st'.entries.length := List.length_filterMap_le _ _
    have := i'.core.len
    have := i'.cap
    omega
  have key : ∀ (rop : ROp K) (op : Op K K), rop.bracketed = true → rop.copied [(k, v)] = some op → op.Pre [(k, v)] →
      2 ≤ (op.spec d [(k, v)]).1.length → rop.exec hash d st = .error .ub := by
    intro rop op hl hc hpre h2
    obtain ⟨st', S', e', i', p', _⟩ := exec_ok (d := d) i p (by omega) hpre
    exact (rexec_eq i p hc e').2 hl (big i' p' h2)
  have e : (ROp.plain (.emplace k v)).exec hash d .init = .ok (st, _) := e
  refine ⟨?_, ?_⟩
  · simp only [rrun, e, ok_bind]
    rw [key (.bracket false k) (.bracket v) rfl (by simp [ROp.copied, lookup, pick]) trivial (by simp [Op.spec, lookup, hv, hv.symm])]
    rfl
  · simp only [rrun, e, ok_bind]
    rw [key (.assign x false k) (.assign x v) rfl (by simp [ROp.copied, lookup, pick]) trivial (by simp [Op.spec, lookup, hx, hx.symm])]
    rfl

/-- `Roomy`, computed. -/
def roomyB (hash : K → Nat) (d : K) (st : HS K K) (m : List (K × K)) : List (ROp K) → Bool
  | [] => true
  | op :: ops => (match op.copied m with
      | some .rehash => !m.isEmpty
      | _ => true) && (!op.late m || st.growth != 0) && match op.exec hash d st with
      | .ok r => roomyB hash d r.1 (op.spec d m).1 ops
      | .error _ => true

theorem roomy_of {hash : K → Nat} {d : K} : ∀ (ops : List (ROp K)) {st : HS K K} {m : List (K × K)}, roomyB hash d st m ops = true → Roomy hash d st m ops := by
  intro ops
  induction ops with
  | nil => intro st m _; trivial
  | cons op ops ih =>
    intro st m h
    simp only [roomyB, Bool.and_eq_true, Bool.or_eq_true, bne_iff_ne, Bool.not_eq_true'] at h
    obtain ⟨⟨h1, h2⟩, h3⟩ := h
    refine ⟨fun o ho => ?_, fun hl => ?_, fun st' o he => ?_⟩
    · rw [ho] at h1
      cases o with
      | rehash => intro hm; subst hm; simp at h1
      | _ => trivial
    · rcases h2 with h2 | h2
      · rw [hl] at h2; cases h2
      · exact h2
    · rw [he] at h3
      exact ih h3

/-- Room is left after the second insertion: two insertions with references into the table, one of them to a key, and an own key erased. -/
example : ∃ st : HS Nat Nat, rrun id 0 .init [.plain (.emplace 1 10), .plain (.emplace 2 20), .bracket false 1, .assign 2 false 1, .emplace 7 true 2,
      .bracket true 1, .erase true 1, .erase false 1] =
    .ok (st, [.inserted 10 true, .inserted 20 true, .value (some 0), .none, .inserted 2 true, .value (some 10), .count 1, .threw]) := by
  have hR : Roomy (K := Nat) id 0 .init [] [.plain (.emplace 1 10), .plain (.emplace 2 20), .bracket false 1, .assign 2 false 1, .emplace 7 true 2,
      .bracket true 1, .erase true 1, .erase false 1] := roomy_of _ (by decide +kernel)
  obtain ⟨st, e, _⟩ := C141_history_partial _ _ _ (by decide) hR
  exact ⟨st, e⟩

example : rrun (fun n : Nat => 31 * n) 0 .init [.plain (.emplace 1 10), .bracket false 1] = .error .ub :=
  (C141_single_violated _ 0 1 10 5 (by decide) (by decide)).1

end Cista.HS

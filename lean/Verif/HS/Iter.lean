import Verif.HS.Props

set_option linter.unusedSimpArgs false

/-!
# C114–C117 — iterating while erasing, stability of references, reallocations and memory of hash tables

An iterator or reference is the slot of its entry (`hash_storage.h:141-190`); it stays valid as long as the array is
not replaced and the entry remains in its slot.
-/
namespace Cista.HS

variable {K V : Type} [DecidableEq K]

/-! ## A loop over a table that erases and changes entries -/

/-- What the body of a loop over a table may do: `m.erase(it)`, `it->second = v` with the iterator of the loop,
`m.erase(k)`, and `if (auto x = m.find(k); x != m.end()) x->second = v`. -/
inductive BOp (K V : Type) where
  | eraseIt
  | assignIt (v : V)
  | erase (k : K)
  | set (k : K) (v : V)

/-- Execute one statement of the body; `i` is the slot of the iterator (hash_storage.h:434-437, 155, 417-425, 377-407). -/
def BOp.exec (hash : K → Nat) (i : Nat) (st : HS K V) : BOp K V → Res (HS K V)
  | .eraseIt => eraseAt st i
  | .assignIt v => assignAt st i v
  | .erase k => do
    let r ← HS.erase hash st k
    .ok r.1
  | .set k v => do
    let r ← find hash st k
    match r with
    | none => .ok st
    | some j => assignAt st j v

/-- The statements of one execution of the body. -/
def execAll (hash : K → Nat) (i : Nat) : List (BOp K V) → HS K V → Res (HS K V)
  | [], st => .ok st
  | op :: ops, st => do
    let st' ← op.exec hash i st
    execAll hash i ops st'

/-- `for (auto it = begin; it != m.end(); ++it) { body(*it) }` from slot `i`, where the body reads `*it`, has a state `s`
and decides what to do (hash_storage.h:155-186, 451-458): the final state, the table and the entries read. -/
def forEach {σ : Type} (hash : K → Nat) (body : σ → K × V → σ × List (BOp K V)) :
    Nat → σ → HS K V → Nat → Res (σ × HS K V × List (K × V))
  | 0, _, _, _ => .error .diverge
  | n + 1, s, st, i =>
    if i = st.cap then .ok (s, st, [])
    else do
      let e ← entryAt st.entries i
      let st' ← execAll hash i (body s e).2 st
      let j ← skip st'.ctrl (st'.cap + 1) (i + 1)
      let r ← forEach hash body n (body s e).1 st' j
      .ok (r.1, r.2.1, e :: r.2.2)

/-- The loop starting with `begin()` (hash_storage.h:451-457). -/
def loop {σ : Type} (hash : K → Nat) (body : σ → K × V → σ × List (BOp K V)) (s : σ) (st : HS K V) :
    Res (σ × HS K V × List (K × V)) := do
  let b ← skip st.ctrl (st.cap + 1) 0
  forEach hash body (st.cap + 1) s st b

/-! ### Specification -/

/-- The effect of a statement on the map; `none`: the iterator of the loop is used although its entry has been erased. -/
def BOp.spec (cur : K) (m : List (K × V)) : BOp K V → Option (List (K × V))
  | .eraseIt => if (lookup m cur).isSome then some (m.filter fun e => decide (e.1 ≠ cur)) else none
  | .assignIt v => if (lookup m cur).isSome then some (m.map fun e => if e.1 = cur then (cur, v) else e) else none
  | .erase k => some (m.filter fun e => decide (e.1 ≠ k))
  | .set k v => some (m.map fun e => if e.1 = k then (k, v) else e)

def specAll (cur : K) : List (BOp K V) → List (K × V) → Option (List (K × V))
  | [], m => some m
  | op :: ops, m => (op.spec cur m).bind (specAll cur ops)

/-- The loop on a map whose keys are visited in the given order: keys that have been erased are not visited. -/
def specLoop {σ : Type} (body : σ → K × V → σ × List (BOp K V)) : List K → σ → List (K × V) →
    Option (σ × List (K × V) × List (K × V))
  | [], s, m => some (s, m, [])
  | k :: ks, s, m => match lookup m k with
    | none => specLoop body ks s m
    | some v => (specAll k (body s (k, v)).2 m).bind fun m' =>
        (specLoop body ks (body s (k, v)).1 m').map fun r => (r.1, r.2.1, (k, v) :: r.2.2)

/-! ### Proof -/

/-- Entries are still in the slots in which they were, except for those erased. -/
structure Sub (es es0 : List (Option (K × V))) : Prop where
  len : es.length = es0.length
  slot : ∀ (p : Nat) (e : K × V), es[p]? = some (some e) → ∃ v, es0[p]? = some (some (e.1, v))

theorem Sub.refl (es : List (Option (K × V))) : Sub es es := ⟨rfl, fun _ e h => ⟨e.2, h⟩⟩

theorem Sub.erase {es es0 : List (Option (K × V))} (h : Sub es es0) (i : Nat) : Sub (es.set i none) es0 := by
  refine ⟨by rw [List.length_set]; exact h.len, fun p e hp => ?_⟩
  by_cases hpi : i = p
  · subst hpi
    by_cases hl : i < es.length
    · rw [List.getElem?_set_self hl] at hp; cases hp
    · rw [List.getElem?_eq_none (by rw [List.length_set]; omega)] at hp; cases hp
  · rw [List.getElem?_set_ne hpi] at hp
    exact h.slot p e hp

theorem Sub.assign {es es0 : List (Option (K × V))} (h : Sub es es0) {i : Nat} {k : K} {v v' : V}
    (he : es[i]? = some (some (k, v))) : Sub (es.set i (some (k, v'))) es0 := by
  refine ⟨by rw [List.length_set]; exact h.len, fun p e hp => ?_⟩
  by_cases hpi : i = p
  · subst hpi
    rw [List.getElem?_set_self (List.getElem?_eq_some_iff.1 he).1] at hp
    injection hp with hp
    injection hp with hp
    subst hp
    exact h.slot i (k, v) he
  · rw [List.getElem?_set_ne hpi] at hp
    exact h.slot p e hp

theorem assignAt_rep {hash : K → Nat} {N : Nat} {st : HS K V} {m : List (K × V)} (h : Rep hash N st m) {i : Nat} {k : K} {v v' : V}
    (he : st.entries[i]? = some (some (k, v))) :
    ∃ st', assignAt st i v' = .ok st' ∧ Rep hash N st' (m.map fun e => if e.1 = k then (k, v') else e) ∧
      st'.entries = st.entries.set i (some (k, v')) ∧ st'.cap = st.cap := by
  obtain ⟨hs, hne⟩ := h.split he
  obtain ⟨S, hi, hp⟩ := h
  obtain ⟨st', h1, h2, h3⟩ := assignAt_ok hi (v' := v') he
  refine ⟨st', h1, ⟨S, h2, ?_⟩, h3, by rw [h2.cap, hi.cap]⟩
  have hm := hs.map fun e => if e.1 = k then (k, v') else e
  rw [List.map_cons, if_pos rfl, map_ne hne] at hm
  rw [h3]
  exact (live_replace he).trans hm.symm

theorem eraseAt_rep' {hash : K → Nat} {N : Nat} {st : HS K V} {m : List (K × V)} (h : Rep hash N st m) {i : Nat} {k : K} {v : V}
    (he : st.entries[i]? = some (some (k, v))) :
    ∃ st', eraseAt st i = .ok st' ∧ Rep hash N st' (m.filter fun e => decide (e.1 ≠ k)) ∧
      st'.entries = st.entries.set i none ∧ st'.cap = st.cap := by
  obtain ⟨st', h1, h2⟩ := eraseAt_rep h he
  obtain ⟨S, hi, hp⟩ := h
  obtain ⟨st'', S', h1', h2', h3', h4'⟩ := eraseAt_ok hi he
  rw [h1] at h1'
  injection h1' with h1'
  subst h1'
  refine ⟨st', h1, h2, h3', ?_⟩
  rw [h2'.cap, hi.cap, ← h2'.core.len, h3', List.length_set, hi.core.len]

theorem entryAt_of {es : List (Option (K × V))} {i : Nat} {e : K × V} (h : es[i]? = some (some e)) : entryAt es i = .ok e := by
  unfold entryAt; rw [h]

theorem mem_lookup {hash : K → Nat} {N : Nat} {st : HS K V} {m : List (K × V)} (h : Rep hash N st m) {i : Nat} {k : K} {v : V}
    (he : st.entries[i]? = some (some (k, v))) : lookup m k = some v := by
  have hn := h.nodup
  obtain ⟨S, hi, hp⟩ := h
  exact lookup_some hn (hp.mem_iff.1 (mem_live.2 ⟨i, he⟩))

theorem slot_of_lookup {hash : K → Nat} {N : Nat} {st : HS K V} {m : List (K × V)} (h : Rep hash N st m) {k : K} {v : V}
    (hl : lookup m k = some v) : ∃ i : Nat, st.entries[i]? = some (some (k, v)) := by
  obtain ⟨S, hi, hp⟩ := h
  exact mem_live.1 (hp.mem_iff.2 (mem_of_lookup hl))

/-- No two slots of the initial table have the same key. -/
def Distinct (es0 : List (Option (K × V))) : Prop :=
  ∀ (i j : Nat) (e f : K × V), es0[i]? = some (some e) → es0[j]? = some (some f) → e.1 = f.1 → i = j

theorem exec_body {hash : K → Nat} {N : Nat} {es0 : List (Option (K × V))} (hd : Distinct es0) {st : HS K V} {m m' : List (K × V)}
    (h : Rep hash N st m) (hs : Sub st.entries es0) {i : Nat} {k : K} {v0 : V} (h0 : es0[i]? = some (some (k, v0))) (op : BOp K V)
    (hop : op.spec k m = some m') :
    ∃ st', op.exec hash i st = .ok st' ∧ Rep hash N st' m' ∧ Sub st'.entries es0 ∧ st'.cap = st.cap := by
  have hcur : (lookup m k).isSome = true → ∃ v, st.entries[i]? = some (some (k, v)) := by
    intro hsome
    obtain ⟨v, hv⟩ := Option.isSome_iff_exists.1 hsome
    obtain ⟨j, hj⟩ := slot_of_lookup h hv
    obtain ⟨v', hj0⟩ := hs.slot j _ hj
    have := hd j i _ _ hj0 h0 rfl
    subst this
    exact ⟨v, hj⟩
  cases op with
  | eraseIt =>
    simp only [BOp.spec] at hop
    by_cases hsome : (lookup m k).isSome = true
    · rw [if_pos hsome] at hop
      injection hop with hop
      obtain ⟨v, hv⟩ := hcur hsome
      obtain ⟨st', h1, h2, h3, h4⟩ := eraseAt_rep' h hv
      exact ⟨st', h1, hop ▸ h2, h3 ▸ hs.erase i, h4⟩
    · rw [if_neg hsome] at hop; cases hop
  | assignIt w =>
    simp only [BOp.spec] at hop
    by_cases hsome : (lookup m k).isSome = true
    · rw [if_pos hsome] at hop
      injection hop with hop
      obtain ⟨v, hv⟩ := hcur hsome
      obtain ⟨st', h1, h2, h3, h4⟩ := assignAt_rep (v' := w) h hv
      exact ⟨st', h1, hop ▸ h2, h3 ▸ hs.assign hv, h4⟩
    · rw [if_neg hsome] at hop; cases hop
  | erase k' =>
    simp only [BOp.spec] at hop
    injection hop with hop
    simp only [BOp.exec, HS.erase]
    rcases h.cases k' with ⟨j, v, h1, h2, h3⟩ | ⟨h1, h2, h3⟩
    · obtain ⟨st', e1, e2, e3, e4⟩ := eraseAt_rep' h h2
      refine ⟨st', ?_, hop ▸ e2, e3 ▸ hs.erase j, e4⟩
      rw [h1]
      simp only [ok_bind]
      rw [e1]; rfl
    · refine ⟨st, by rw [h1]; rfl, ?_, hs, rfl⟩
      obtain ⟨S, hi, hp⟩ := h
      rw [← hop, filter_ne fun f hf => h2 f (hp.mem_iff.2 hf)]
      exact ⟨S, hi, hp⟩
  | set k' w =>
    simp only [BOp.spec] at hop
    injection hop with hop
    simp only [BOp.exec]
    rcases h.cases k' with ⟨j, v, h1, h2, h3⟩ | ⟨h1, h2, h3⟩
    · obtain ⟨st', e1, e2, e3, e4⟩ := assignAt_rep (v' := w) h h2
      refine ⟨st', ?_, hop ▸ e2, e3 ▸ hs.assign h2, e4⟩
      rw [h1]
      simp only [ok_bind]
      exact e1
    · refine ⟨st, by rw [h1]; rfl, ?_, hs, rfl⟩
      obtain ⟨S, hi, hp⟩ := h
      rw [← hop, map_ne fun f hf => h2 f (hp.mem_iff.2 hf)]
      exact ⟨S, hi, hp⟩

theorem execAll_ok {hash : K → Nat} {N : Nat} {es0 : List (Option (K × V))} (hd : Distinct es0) {i : Nat} {k : K} {v0 : V}
    (h0 : es0[i]? = some (some (k, v0))) : ∀ (ops : List (BOp K V)) {st : HS K V} {m m' : List (K × V)},
    Rep hash N st m → Sub st.entries es0 → specAll k ops m = some m' →
    ∃ st', execAll hash i ops st = .ok st' ∧ Rep hash N st' m' ∧ Sub st'.entries es0 ∧ st'.cap = st.cap
  | [], st, m, m', h, hs, hop => by
    simp only [specAll] at hop
    injection hop with hop
    exact ⟨st, rfl, hop ▸ h, hs, rfl⟩
  | op :: ops, st, m, m', h, hs, hop => by
    simp only [specAll] at hop
    cases h1 : op.spec k m with
    | none => rw [h1] at hop; cases hop
    | some m1 =>
      rw [h1, Option.bind_some] at hop
      obtain ⟨st1, e1, r1, s1, c1⟩ := exec_body hd h hs h0 op h1
      obtain ⟨st2, e2, r2, s2, c2⟩ := execAll_ok hd h0 ops r1 s1 hop
      refine ⟨st2, ?_, r2, s2, by rw [c2, c1]⟩
      simp only [execAll]
      rw [e1, ok_bind]; exact e2

/-- Slots without an entry do not count. -/
theorem specLoop_skip {σ : Type} {body : σ → K × V → σ × List (BOp K V)} {hash : K → Nat} {N : Nat} {st : HS K V} {m : List (K × V)}
    {es0 : List (Option (K × V))} (hd : Distinct es0) (h : Rep hash N st m) (hs : Sub st.entries es0) (s : σ) :
    ∀ (n i j : Nat), j = i + n → (∀ p, i ≤ p → p < j → ∀ e, st.entries[p]? ≠ some (some e)) →
      specLoop body ((live (es0.drop i)).map Prod.fst) s m = specLoop body ((live (es0.drop j)).map Prod.fst) s m
  | 0, i, j, hj, _ => by rw [hj]; rfl
  | n + 1, i, j, hj, hp => by
    have ih := specLoop_skip hd h hs s (body := body) n (i + 1) j (by omega) fun p h1 h2 => hp p (by omega) h2
    by_cases hil : i < es0.length
    · rw [← ih, List.drop_eq_getElem_cons hil]
      cases ho : es0[i] with
      | none => rfl
      | some e =>
        rw [live_cons_some, List.map_cons]
        have hno : lookup m e.1 = none := by
          cases hl : lookup m e.1 with
          | none => rfl
          | some v =>
            obtain ⟨q, hq⟩ := slot_of_lookup h hl
            obtain ⟨v', hq0⟩ := hs.slot q _ hq
            have := hd q i _ e hq0 (by rw [List.getElem?_eq_getElem hil, ho]) rfl
            subst this
            exact absurd hq (hp q (by omega) (by omega) _)
        simp only [specLoop, hno]
    · rw [List.drop_eq_nil_of_le (by omega), List.drop_eq_nil_of_le (by omega)]

theorem no_entry {hash : K → Nat} {S : List Nat} {es : List (Option (K × V))} (c : Core hash S es) {p : Nat}
    (h : isED (byteAt S p) = true) (e : K × V) : es[p]? ≠ some (some e) := by
  intro he
  have h1 := c.tag p e he
  rw [byteAt_slot h1] at h
  have := h2_lt (hash e.1)
  simp [isED] at h; omega

theorem forEach_ok {σ : Type} {body : σ → K × V → σ × List (BOp K V)} {hash : K → Nat} {N : Nat}
    {es0 : List (Option (K × V))} (hd : Distinct es0) : ∀ (f i : Nat) (s : σ) (st : HS K V) (m : List (K × V)) (S : List Nat)
    (r : σ × List (K × V) × List (K × V)), Inv hash N st S → (live st.entries).Perm m → Sub st.entries es0 → i ≤ S.length →
    S.length < i + f → isED (byteAt S i) = false → specLoop body ((live (es0.drop i)).map Prod.fst) s m = some r →
    ∃ st', forEach hash body f s st i = .ok (r.1, st', r.2.2) ∧ Rep hash N st' r.2.1 ∧ Sub st'.entries es0 ∧ st'.cap = st.cap
  | 0, i, s, st, m, S, r, _, _, _, h1, h2, _, _ => by omega
  | f + 1, i, s, st, m, S, r, hi, hp, hs, h1, h2, hE, hr => by
    have hlen : es0.length = S.length := by rw [← hs.len, hi.core.len]
    unfold forEach
    by_cases hic : i = st.cap
    · rw [if_pos hic]
      rw [List.drop_eq_nil_of_le (by rw [hlen, ← hi.cap]; omega)] at hr
      simp only [live, List.filterMap_nil, List.map_nil, specLoop] at hr
      injection hr with hr
      subst hr
      exact ⟨st, rfl, ⟨S, hi, hp⟩, hs, rfl⟩
    · rw [if_neg hic]
      have hil : i < S.length := by have := hi.cap; omega
      obtain ⟨e, he⟩ := hi.core.occ i _ (List.getElem?_eq_getElem hil) (by
        have := byteAt_bound hi.core.sv hil hE
        rwa [byteAt_slot (List.getElem?_eq_getElem hil)] at this)
      obtain ⟨v0, he0⟩ := hs.slot i e he
      have hrep : Rep hash N st m := ⟨S, hi, hp⟩
      have hl : lookup m e.1 = some e.2 := mem_lookup hrep he
      have hi0 : i < es0.length := by omega
      have hoe : es0[i] = some (e.1, v0) := by rw [List.getElem?_eq_getElem hi0] at he0; injection he0
      rw [List.drop_eq_getElem_cons hi0, hoe, live_cons_some, List.map_cons] at hr
      simp only [specLoop, hl] at hr
      cases hsp : specAll e.1 (body s (e.1, e.2)).2 m with
      | none => rw [hsp] at hr; cases hr
      | some m' =>
        rw [hsp, Option.bind_some] at hr
        obtain ⟨st', ex, hrep', hs', hcap'⟩ := execAll_ok hd he0 _ hrep hs hsp
        have hrep'' := hrep'
        obtain ⟨S', hi', hp'⟩ := hrep'
        obtain ⟨t, ht⟩ := hi'.lay
        have hSS : S'.length = S.length := by rw [← hi'.cap, hcap', hi.cap]
        obtain ⟨j, hj, h3, h4, h5, h6⟩ := skip_ok t hi'.core.sv (st'.cap + 1) (i + 1) (by omega) (by have := hi'.cap; omega)
        rw [specLoop_skip (st := st') hd hrep'' hs' _ (j - (i + 1)) (i + 1) j (by omega)
          fun p h7 h8 => no_entry hi'.core (h5 p h7 h8)] at hr
        cases hsl : specLoop body ((live (es0.drop j)).map Prod.fst) (body s (e.1, e.2)).1 m' with
        | none => rw [hsl] at hr; cases hr
        | some r' =>
          rw [hsl, Option.map_some] at hr
          injection hr with hr
          obtain ⟨st2, e2, r2, s2, c2⟩ := forEach_ok hd f j _ st' m' S' r' hi' hp' hs' h4 (by omega) h6 hsl
          refine ⟨st2, ?_, by rw [← hr]; exact r2, s2, by rw [c2, hcap']⟩
          rw [entryAt_of he, ok_bind, ex, ok_bind, ht, hj, ok_bind, e2, ok_bind, ← hr]

theorem loop_ok {hash : K → Nat} {N : Nat} {st : HS K V} {m : List (K × V)} (h : Rep hash N st m) :
    ∃ order : List K, order.Perm (m.map Prod.fst) ∧ ∀ {σ : Type} (body : σ → K × V → σ × List (BOp K V)) (s : σ)
      (r : σ × List (K × V) × List (K × V)), specLoop body order s m = some r →
      ∃ st', loop hash body s st = .ok (r.1, st', r.2.2) ∧ Rep hash N st' r.2.1 := by
  have hrep := h
  obtain ⟨S, hi, hp⟩ := h
  refine ⟨(live st.entries).map Prod.fst, hp.map _, fun body s r hr => ?_⟩
  obtain ⟨t, ht⟩ := hi.lay
  have hcap := hi.cap
  obtain ⟨j, hj, h3, h4, h5, h6⟩ := skip_ok t hi.core.sv (st.cap + 1) 0 (by omega) (by omega)
  have hd : Distinct st.entries := hi.core.dist
  have hr' : specLoop body ((live (st.entries.drop j)).map Prod.fst) s m = some r := by
    rw [← specLoop_skip hd hrep (Sub.refl _) s j 0 j (by omega) fun p h7 h8 => no_entry hi.core (h5 p h7 h8)]
    exact hr
  obtain ⟨st', e, r', _, _⟩ := forEach_ok hd (st.cap + 1) j s st m S r hi hp (Sub.refl _) h4 (by omega) h6 hr'
  refine ⟨st', ?_, r'⟩
  unfold loop
  rw [ht, hj, ok_bind, e]

/-- **C114** Iterating over a table reached by any history with a loop whose body may erase the entry at the iterator, erase
and change other entries: there is an order of the keys — which does not depend on what the body does — in which
exactly the entries not yet erased are visited, with their current values; the table then holds what the
statements of the body leave. -/
theorem C114_loop (hash : K → Nat) (d : V) (ops : List (Op K V)) (hlen : ops.length < 2 ^ 60) (ha : Allowed d [] ops)
    {st : HS K V} {outs : List (Out V)} (hrun : run hash d HS.init ops = .ok (st, outs)) :
    ∃ order : List K, order.Perm ((specRun d [] ops).1.map Prod.fst) ∧
      ∀ {σ : Type} (body : σ → K × V → σ × List (BOp K V)) (s : σ) (r : σ × List (K × V) × List (K × V)),
        specLoop body order s (specRun d [] ops).1 = some r →
        ∃ st', loop hash body s st = .ok (r.1, st', r.2.2) ∧ st'.size = r.2.1.length ∧
          (∀ k, get hash st' k = .ok (lookup r.2.1 k)) ∧ destroy st' = .ok () := by
  obtain ⟨st0, h1, h2⟩ := run_ok ops (Rep.init hash) (by omega) ha
  rw [h1] at hrun
  injection hrun with hrun
  injection hrun with hrun _
  subst hrun
  obtain ⟨order, hp, hl⟩ := loop_ok h2
  refine ⟨order, hp, fun body s r hr => ?_⟩
  obtain ⟨st', e, hrep⟩ := hl body s r hr
  refine ⟨st', e, ?_, hrep.get, ?_⟩
  · obtain ⟨S, hi, hp⟩ := hrep
    rw [hi.size, hp.length_eq]
  · obtain ⟨S, hi, _⟩ := hrep
    exact destroy_ok hi

/-- The body `if (p(*it)) m.erase(it);`. -/
def eraseIf (p : K × V → Bool) (_ : Unit) (e : K × V) : Unit × List (BOp K V) := ((), if p e then [.eraseIt] else [])

theorem lookup_filter_ne {m : List (K × V)} {k k' : K} (h : k' ≠ k) :
    lookup (m.filter fun e => decide (e.1 ≠ k)) k' = lookup m k' := by
  unfold lookup
  induction m with
  | nil => rfl
  | cons e m ih =>
    by_cases hek : e.1 = k
    · rw [List.filter_cons_of_neg (by simp [hek]), List.find?_cons_of_neg (by simp [hek]; exact fun h' => h h'.symm)]
      exact ih
    · rw [List.filter_cons_of_pos (by simp [hek])]
      by_cases hek' : e.1 = k'
      · rw [List.find?_cons_of_pos (by simp [hek']), List.find?_cons_of_pos (by simp [hek'])]
      · rw [List.find?_cons_of_neg (by simp [hek']), List.find?_cons_of_neg (by simp [hek'])]
        exact ih

theorem perm_of_keys : ∀ (a b : List (K × V)), (a.map Prod.fst).Perm (b.map Prod.fst) → (b.map Prod.fst).Nodup →
    (∀ e ∈ a, e ∈ b) → a.Perm b
  | [], b, hp, _, _ => by
    have := hp.length_eq
    simp only [List.map_nil, List.length_nil, List.length_map] at this
    rw [List.eq_nil_of_length_eq_zero this.symm]
  | e :: a, b, hp, hn, hs => by
    obtain ⟨s, t, rfl⟩ := List.append_of_mem (hs e List.mem_cons_self)
    have hb : (s ++ e :: t).Perm (e :: (s ++ t)) := List.perm_middle
    have hp' := hp.trans (hb.map Prod.fst)
    simp only [List.map_cons] at hp'
    have hn' := (hb.map Prod.fst).nodup_iff.1 hn
    have hna := hp'.nodup_iff.2 hn'
    simp only [List.map_cons, List.nodup_cons] at hn' hna
    refine ((perm_of_keys a (s ++ t) hp'.cons_inv hn'.2 fun f hf => ?_).cons e).trans hb.symm
    rcases List.mem_cons.1 (hb.mem_iff.1 (hs f (List.mem_cons_of_mem _ hf))) with rfl | h
    · exact absurd (List.mem_map.2 ⟨f, hf, rfl⟩) hna.1
    · exact h

theorem specLoop_eraseIf (p : K × V → Bool) : ∀ (ks : List K) (m : List (K × V)), (m.map Prod.fst).Nodup → ks.Nodup →
    (∀ k ∈ ks, (lookup m k).isSome) →
    ∃ vis : List (K × V), specLoop (eraseIf p) ks () m = some ((), m.filter fun e => !(decide (e.1 ∈ ks) && p e), vis) ∧
      vis.map Prod.fst = ks ∧ ∀ e ∈ vis, e ∈ m
  | [], m, _, _, _ => by
    refine ⟨[], ?_, rfl, by simp⟩
    simp only [specLoop, List.not_mem_nil, decide_false, Bool.false_and, Bool.not_false]
    rw [List.filter_eq_self.2 (fun _ _ => rfl)]
  | k :: ks, m, hn, hk, hl => by
    obtain ⟨v, hv⟩ := Option.isSome_iff_exists.1 (hl k List.mem_cons_self)
    have hmem := mem_of_lookup hv
    rw [List.nodup_cons] at hk
    simp only [specLoop, hv, eraseIf]
    cases hp : p (k, v) with
    | true =>
      simp only [if_true, specAll, BOp.spec, hv, Option.isSome_some, Option.bind_some]
      obtain ⟨vis, h1, h2, h3⟩ := specLoop_eraseIf p ks (m.filter fun e => decide (e.1 ≠ k))
        (hn.sublist (List.Sublist.map _ List.filter_sublist)) hk.2
        (fun k' hk' => by rw [lookup_filter_ne (fun h : k' = k => hk.1 (h ▸ hk'))]; exact hl k' (List.mem_cons_of_mem _ hk'))
      refine ⟨(k, v) :: vis, ?_, by rw [List.map_cons, h2], ?_⟩
      · rw [h1, Option.map_some, List.filter_filter]
        simp only [Option.some.injEq, Prod.mk.injEq, true_and, and_true]
        apply List.filter_congr
        intro e he
        by_cases hek : e.1 = k
        · have : e = (k, v) := by
            have h4 : lookup m e.1 = some e.2 := lookup_some hn he
            rw [hek, hv] at h4
            injection h4 with h4
            rw [h4, ← hek]
          subst this
          simp [hp]
        · simp [hek]
      · intro e he
        rcases List.mem_cons.1 he with rfl | he
        · exact hmem
        · exact (List.mem_filter.1 (h3 e he)).1
    | false =>
      simp only [Bool.false_eq_true, if_false, specAll, Option.bind_some]
      obtain ⟨vis, h1, h2, h3⟩ := specLoop_eraseIf p ks m hn hk.2 (fun k' hk' => hl k' (List.mem_cons_of_mem _ hk'))
      refine ⟨(k, v) :: vis, ?_, by rw [List.map_cons, h2], ?_⟩
      · rw [h1, Option.map_some]
        simp only [Option.some.injEq, Prod.mk.injEq, true_and, and_true]
        apply List.filter_congr
        intro e he
        by_cases hek : e.1 = k
        · have : e = (k, v) := by
            have h4 : lookup m e.1 = some e.2 := lookup_some hn he
            rw [hek, hv] at h4
            injection h4 with h4
            rw [h4, ← hek]
          subst this
          simp [hp]
        · simp [hek]
      · intro e he
        rcases List.mem_cons.1 he with rfl | he
        · exact hmem
        · exact h3 e he

/-- **C114** Erasing all entries that satisfy a predicate while iterating: every entry is visited exactly once, and
exactly those that do not satisfy the predicate remain. -/
theorem C114_erase_if (hash : K → Nat) (d : V) (ops : List (Op K V)) (hlen : ops.length < 2 ^ 60) (ha : Allowed d [] ops)
    {st : HS K V} {outs : List (Out V)} (hrun : run hash d HS.init ops = .ok (st, outs)) (p : K × V → Bool) :
    ∃ st' vis, loop hash (eraseIf p) () st = .ok ((), st', vis) ∧ vis.Perm (specRun d [] ops).1 ∧
      (∀ k, get hash st' k = .ok (lookup ((specRun d [] ops).1.filter fun e => !p e) k)) ∧
      st'.size = ((specRun d [] ops).1.filter fun e => !p e).length ∧ destroy st' = .ok () := by
  obtain ⟨st0, h1, h2⟩ := run_ok ops (Rep.init hash) (by omega) ha
  obtain ⟨order, hp, hl⟩ := C114_loop hash d ops hlen ha hrun
  have hn := h2.nodup
  generalize (specRun d [] ops).1 = m at *
  have hno := hp.nodup_iff.2 hn
  obtain ⟨vis, e, hv1, hv2⟩ := specLoop_eraseIf p order m hn hno (fun k hk => by
    obtain ⟨e, he, rfl⟩ := List.mem_map.1 (hp.mem_iff.1 hk)
    rw [lookup_some hn he]; rfl)
  have hf : (m.filter fun e => !(decide (e.1 ∈ order) && p e)) = m.filter fun e => !p e := by
    apply List.filter_congr
    intro e he
    have : e.1 ∈ order := hp.mem_iff.2 (List.mem_map.2 ⟨e, he, rfl⟩)
    simp [this]
  rw [hf] at e
  obtain ⟨st', g1, g2, g3, g4⟩ := hl (eraseIf p) () _ e
  refine ⟨st', vis, g1, ?_, g3, g2, g4⟩
  exact perm_of_keys vis m (by rw [hv1]; exact hp) hn hv2

/-- Twenty colliding keys, some erased before; erase the odd keys while iterating. -/
example : ((run (fun _ => 0) 0 HS.init exOps).bind fun r => (loop (fun _ => 0) (eraseIf fun e => e.1 % 2 = 1) () r.1).map fun q =>
    (q.2.1.size, q.2.2.map Prod.fst)) =
    .ok (11, [15, 16, 19, 12, 13, 4, 5, 17, 18, 6, 8, 0, 1, 2, 30, 9, 10, 11, 14]) := by decide +kernel

/-- A body that at each entry erases the key two above: erased keys are not visited. -/
def eraseLater (n : Nat) (e : Nat × Nat) : Nat × List (BOp Nat Nat) := (n + e.2, [.assignIt 0, .erase (e.1 + 2), .set 19 1])

example : ((run (fun _ => 0) 0 HS.init exOps).bind fun r => (loop (fun _ => 0) eraseLater 0 r.1).map fun q =>
    (q.1, q.2.1.size, q.2.2)) =
    .ok (782, 11, [(15, 150), (16, 160), (19, 1), (12, 120), (13, 130), (4, 40), (5, 1), (8, 80), (0, 0), (1, 10), (30, 0), (9, 90)]) := by
  decide +kernel

/-! ## References and iterators stay valid -/

/-- Operations that do not replace the array except to make room: everything but `clear`, `rehash`, copying and moving. -/
def Op.keeps : Op K V → Bool
  | .clear | .rehash | .copy | .move => false
  | _ => true

/-- Operations that may insert an entry. -/
def Op.inserts : Op K V → Bool
  | .emplace _ _ | .bracket _ | .assign _ _ => true
  | _ => false

/-- `it.erase(k)`, the only operation that ends the life of the entry of `k`. -/
def Op.erases (k : K) : Op K V → Bool
  | .erase k' => decide (k' = k)
  | _ => false

/-- `m[k] = v`. -/
def Op.assigns (k : K) : Op K V → Bool
  | .assign k' _ => decide (k' = k)
  | _ => false

theorem bind_inv {α β : Type} {x : Res α} {f : α → Res β} {b : β} (h : (x >>= f) = .ok b) : ∃ a, x = .ok a ∧ f a = .ok b := by
  cases x with
  | error e => cases h
  | ok a => exact ⟨a, rfl, h⟩

/-- The array before and after an operation: kept as long as `growth_left_` is not 0, otherwise kept or doubled. -/
structure Kept (st st' : HS K V) : Prop where
  cap : st'.cap = st.cap ∨ st'.cap + 1 = 2 * (st.cap + 1)
  room : st.growth ≠ 0 → st'.cap = st.cap ∧ st.growth ≤ st'.growth + 1

theorem takeSlot_inv {st st1 : HS K V} {t h i : Nat} (e : takeSlot st t h = .ok (st1, i)) :
    st1.cap = st.cap ∧ st1.entries = st.entries ∧ st.growth ≤ st1.growth + 1 := by
  unfold takeSlot at e
  obtain ⟨c, _, e⟩ := bind_inv e
  obtain ⟨ctrl, _, e⟩ := bind_inv e
  injection e with e
  injection e with e _
  subst e
  refine ⟨rfl, rfl, ?_⟩
  dsimp only
  split <;> omega

theorem prepareInsert_inv {hash : K → Nat} {st st1 : HS K V} {h i : Nat} (e : prepareInsert hash st h = .ok (st1, i)) :
    Kept st st1 ∧ (st.growth ≠ 0 → st1.entries = st.entries) := by
  unfold prepareInsert at e
  obtain ⟨t, _, e⟩ := bind_inv e
  obtain ⟨c, _, e⟩ := bind_inv e
  by_cases hg : st.growth = 0 ∧ c ≠ DELETED
  · rw [if_pos hg] at e
    obtain ⟨st', hgr, e⟩ := bind_inv e
    obtain ⟨t', _, e⟩ := bind_inv e
    obtain ⟨h1, _, _⟩ := takeSlot_inv e
    refine ⟨⟨Or.inr ?_, fun h => absurd hg.1 h⟩, fun h => absurd hg.1 h⟩
    unfold grow resize at hgr
    obtain ⟨s, _, hgr⟩ := bind_inv hgr
    split at hgr
    · cases hgr
    · injection hgr with hgr
      rw [h1, ← hgr]
      dsimp only
      split <;> omega
  · rw [if_neg hg] at e
    obtain ⟨h1, h2, h3⟩ := takeSlot_inv e
    exact ⟨⟨Or.inl h1, fun _ => ⟨h1, h3⟩⟩, fun _ => h2⟩

theorem Kept.refl (st : HS K V) : Kept st st := ⟨Or.inl rfl, fun _ => ⟨rfl, by omega⟩⟩

theorem findOrPrepare_inv {hash : K → Nat} {st st1 : HS K V} {k : K} {i : Nat} {b : Bool}
    (e : findOrPrepare hash st k = .ok (st1, i, b)) :
    Kept st st1 ∧ (st.growth ≠ 0 → st1.entries = st.entries) := by
  unfold findOrPrepare at e
  obtain ⟨r, _, e⟩ := bind_inv e
  cases r with
  | some j =>
    injection e with e
    injection e with e _
    subst e
    exact ⟨Kept.refl _, fun _ => rfl⟩
  | none =>
    obtain ⟨p, hp, e⟩ := bind_inv e
    injection e with e
    injection e with e _
    subst e
    exact prepareInsert_inv hp

theorem construct_inv {es es' : List (Option (K × V))} {i : Nat} {e : K × V} (h : construct es i e = .ok es') :
    es[i]? = some none ∧ es' = es.set i (some e) := by
  unfold construct at h
  split at h
  · next h0 => injection h with h; exact ⟨h0, h.symm⟩
  · cases h
  · cases h

/-- The entries before an insertion are in their slots after it. -/
def Stays (es es' : List (Option (K × V))) : Prop :=
  ∀ (i : Nat) (e : K × V), es[i]? = some (some e) → es'[i]? = some (some e)

theorem Stays.set {es : List (Option (K × V))} {i : Nat} {e : K × V} (h : es[i]? = some none) : Stays es (es.set i (some e)) := by
  intro j f hj
  by_cases hij : i = j
  · subst hij; rw [h] at hj; cases hj
  · rw [List.getElem?_set_ne hij]; exact hj

theorem emplace_inv {hash : K → Nat} {st st' : HS K V} {f : K × V} {i : Nat} {b : Bool}
    (h : emplace hash st f = .ok (st', i, b)) : Kept st st' ∧ (st.growth ≠ 0 → Stays st.entries st'.entries) := by
  unfold emplace at h
  obtain ⟨r, hr, h⟩ := bind_inv h
  obtain ⟨hk, hs⟩ := findOrPrepare_inv (st1 := r.1) (i := r.2.1) (b := r.2.2) hr
  split at h
  · obtain ⟨es, hes, h⟩ := bind_inv h
    injection h with h
    injection h with h _
    subst h
    obtain ⟨h0, rfl⟩ := construct_inv hes
    exact ⟨⟨hk.cap, hk.room⟩, fun hg => by rw [hs hg] at h0 ⊢; exact Stays.set h0⟩
  · injection h with h
    subst h
    exact ⟨hk, fun hg => by rw [hs hg]; exact fun _ _ h => h⟩

theorem bracket_inv {hash : K → Nat} {d : V} {st st' : HS K V} {k : K} {i : Nat}
    (h : bracket hash d st k = .ok (st', i)) : Kept st st' ∧ (st.growth ≠ 0 → Stays st.entries st'.entries) := by
  unfold bracket at h
  obtain ⟨r, hr, h⟩ := bind_inv h
  obtain ⟨hk, hs⟩ := findOrPrepare_inv (st1 := r.1) (i := r.2.1) (b := r.2.2) hr
  split at h
  · obtain ⟨es, hes, h⟩ := bind_inv h
    injection h with h
    injection h with h _
    subst h
    obtain ⟨h0, rfl⟩ := construct_inv hes
    exact ⟨⟨hk.cap, hk.room⟩, fun hg => by rw [hs hg] at h0 ⊢; exact Stays.set h0⟩
  · obtain ⟨_, _, h⟩ := bind_inv h
    injection h with h
    injection h with h _
    subst h
    exact ⟨hk, fun hg => by rw [hs hg]; exact fun _ _ h => h⟩

theorem exec_inv {hash : K → Nat} {d : V} {N : Nat} {st st' : HS K V} {S : List Nat} (hi : Inv hash N st S) (hN : N < 2 ^ 60)
    {op : Op K V} (hk : op.keeps = true) {o : Out V} (h : op.exec hash d st = .ok (st', o)) :
    Kept st st' ∧ (op.inserts = false → st'.cap = st.cap ∧ st.growth ≤ st'.growth) ∧
    ((op.inserts = true → st.growth ≠ 0) → ∀ (i : Nat) (k : K) (v : V), st.entries[i]? = some (some (k, v)) → op.erases k = false →
      ∃ v', st'.entries[i]? = some (some (k, v')) ∧ (op.assigns k = false → v' = v)) := by
  have same : ∀ {st' : HS K V}, st = st' → Kept st st' ∧ (op.inserts = false → st'.cap = st.cap ∧ st.growth ≤ st'.growth) ∧
    ((op.inserts = true → st.growth ≠ 0) → ∀ (i : Nat) (k : K) (v : V), st.entries[i]? = some (some (k, v)) → op.erases k = false →
      ∃ v', st'.entries[i]? = some (some (k, v')) ∧ (op.assigns k = false → v' = v)) := by
    rintro _ rfl
    exact ⟨Kept.refl _, fun _ => ⟨rfl, Nat.le_refl _⟩, fun _ i k v he _ => ⟨v, he, fun _ => rfl⟩⟩
  cases op with
  | emplace k v =>
    simp only [Op.exec] at h
    obtain ⟨r, hr, h⟩ := bind_inv h
    obtain ⟨e, _, h⟩ := bind_inv h
    injection h with h
    injection h with h _
    subst h
    obtain ⟨h1, h2⟩ := emplace_inv (st' := r.1) (i := r.2.1) (b := r.2.2) hr
    exact ⟨h1, fun h => (nomatch h), fun hg i k v he _ => ⟨v, h2 (hg rfl) i _ he, fun _ => rfl⟩⟩
  | bracket k =>
    simp only [Op.exec] at h
    obtain ⟨r, hr, h⟩ := bind_inv h
    obtain ⟨e, _, h⟩ := bind_inv h
    injection h with h
    injection h with h _
    subst h
    obtain ⟨h1, h2⟩ := bracket_inv (st' := r.1) (i := r.2) hr
    exact ⟨h1, fun h => (nomatch h), fun hg i k v he _ => ⟨v, h2 (hg rfl) i _ he, fun _ => rfl⟩⟩
  | assign k w =>
    simp only [Op.exec] at h
    obtain ⟨r, hr, h⟩ := bind_inv h
    obtain ⟨st2, ha, h⟩ := bind_inv h
    injection h with h
    injection h with h _
    subst h
    obtain ⟨h1, h2⟩ := bracket_inv (st' := r.1) (i := r.2) hr
    unfold assignAt at ha
    obtain ⟨f, hf, ha⟩ := bind_inv ha
    injection ha with ha
    subst ha
    refine ⟨⟨h1.cap, h1.room⟩, fun h => (nomatch h), fun hg i k' v he _ => ?_⟩
    have he' := h2 (hg rfl) i _ he
    dsimp only
    by_cases hri : r.2 = i
    · subst hri
      have hfe : f = (k', v) := by
        unfold entryAt at hf
        rw [he'] at hf
        injection hf with hf
        exact hf.symm
      subst hfe
      refine ⟨w, List.getElem?_set_self (List.getElem?_eq_some_iff.1 he').1, fun hna => ?_⟩
      exfalso
      -- the slot returned by `operator[]` holds the key asked for
      have hkk : k' = k := by
        rcases hi.find_cases k with ⟨j, v1, hf1, hf2, _⟩ | ⟨hf1, hf2⟩
        · rw [bracket_present hi d hf2] at hr
          injection hr with hr
          subst hr
          rw [hf2] at he'
          injection he' with he'
          injection he' with he'
          injection he' with he' _
          exact he'.symm
        · obtain ⟨st3, S3, i3, b1, _, b2, _⟩ := bracket_absent hi hN d hf2
          rw [b1] at hr
          injection hr with hr
          subst hr
          rw [b2] at he'
          injection he' with he'
          injection he' with he'
          injection he' with he' _
          exact he'.symm
      simp [Op.assigns, hkk] at hna
    · exact ⟨v, by rw [List.getElem?_set_ne hri]; exact he', fun _ => rfl⟩
  | get k =>
    simp only [Op.exec] at h
    obtain ⟨r, _, h⟩ := bind_inv h
    injection h with h
    injection h with h _
    exact same h
  | atKey k =>
    simp only [Op.exec] at h
    split at h
    · injection h with h
      injection h with h _
      exact same h
    · injection h with h
      injection h with h _
      exact same h
    · cases h
  | erase k =>
    simp only [Op.exec, HS.erase] at h
    obtain ⟨r, hr, h⟩ := bind_inv h
    injection h with h
    injection h with h _
    subst h
    rcases hi.find_cases k with ⟨j, v1, hf1, hf2, _⟩ | ⟨hf1, hf2⟩
    · rw [hf1] at hr
      simp only [ok_bind] at hr
      obtain ⟨st2, he2, hr⟩ := bind_inv hr
      injection hr with hr
      subst hr
      obtain ⟨st3, S', e1, e2, e3, _⟩ := eraseAt_ok hi hf2
      rw [e1] at he2
      injection he2 with he2
      subst he2
      have hcap : st3.cap = st.cap := by
        rw [e2.cap, hi.cap, ← e2.core.len, e3, List.length_set, hi.core.len]
      have hgr : st.growth ≤ st3.growth := by
        unfold eraseAt eraseMeta at e1
        obtain ⟨_, _, e1⟩ := bind_inv e1
        obtain ⟨_, _, e1⟩ := bind_inv e1
        obtain ⟨_, _, e1⟩ := bind_inv e1
        injection e1 with e1
        rw [← e1]
        dsimp only
        omega
      refine ⟨⟨Or.inl hcap, fun _ => ⟨hcap, by dsimp only; omega⟩⟩, fun _ => ⟨hcap, hgr⟩, fun _ i k' v he hne => ⟨v, ?_, fun _ => rfl⟩⟩
      dsimp only
      rw [e3, List.getElem?_set_ne]
      · exact he
      · rintro rfl
        rw [hf2] at he
        injection he with he
        injection he with he
        injection he with he _
        simp [Op.erases, he] at hne
    · rw [hf1] at hr
      simp only [ok_bind] at hr
      injection hr with hr
      subst hr
      exact same rfl
  | size =>
    simp only [Op.exec] at h
    injection h with h
    injection h with h _
    exact same h
  | clear => cases hk
  | rehash => cases hk
  | copy => cases hk
  | move => cases hk

/-- Number of operations that replaced the array. -/
def reallocs (hash : K → Nat) (d : V) : HS K V → List (Op K V) → Nat
  | _, [] => 0
  | st, op :: ops => match op.exec hash d st with
    | .ok r => (if r.1.cap = st.cap then 0 else 1) + reallocs hash d r.1 ops
    | .error _ => 0

theorem allowed_keeps {d : V} : ∀ {ops : List (Op K V)} {m : List (K × V)}, ops.all Op.keeps = true → Allowed d m ops
  | [], _, _ => trivial
  | op :: ops, m, h => by
    rw [List.all_cons, Bool.and_eq_true] at h
    refine ⟨?_, allowed_keeps h.2⟩
    cases op <;> first | trivial | exact absurd h.1 (by simp [Op.keeps])

theorem stable_run {hash : K → Nat} {d : V} : ∀ (ops : List (Op K V)) {N : Nat} {st : HS K V} {S : List Nat}, Inv hash N st S →
    N + ops.length < 2 ^ 60 → ops.all Op.keeps = true → ops.countP Op.inserts ≤ st.growth →
    ∃ st' outs, run hash d st ops = .ok (st', outs) ∧ st'.cap = st.cap ∧
      ∀ (i : Nat) (k : K) (v : V), st.entries[i]? = some (some (k, v)) → (∀ op ∈ ops, op.erases k = false) →
        ∃ v', st'.entries[i]? = some (some (k, v')) ∧ ((∀ op ∈ ops, op.assigns k = false) → v' = v)
  | [], N, st, S, _, _, _, _ => ⟨st, [], rfl, rfl, fun i k v he _ => ⟨v, he, fun _ => rfl⟩⟩
  | op :: ops, N, st, S, hi, hN, hk, hc => by
    rw [List.length_cons] at hN
    rw [List.all_cons, Bool.and_eq_true] at hk
    rw [List.countP_cons] at hc
    have hpre : op.Pre (live st.entries) := (allowed_keeps (d := d) (ops := [op]) (by simp [hk.1])).1
    obtain ⟨st1, S1, e1, i1, _, _⟩ := exec_ok (d := d) hi (List.Perm.refl _) (by omega) hpre
    obtain ⟨h1, h2, h3⟩ := exec_inv hi (by omega) hk.1 e1
    have hroom : st1.cap = st.cap ∧ ops.countP Op.inserts ≤ st1.growth := by
      cases hins : op.inserts with
      | true =>
        rw [hins, if_pos rfl] at hc
        have := h1.room (by omega)
        exact ⟨this.1, by omega⟩
      | false =>
        rw [hins] at hc
        have := h2 hins
        exact ⟨this.1, by simp only [Bool.false_eq_true, if_false] at hc; omega⟩
    obtain ⟨st2, outs, e2, c2, s2⟩ := stable_run ops (d := d) i1 (by omega) hk.2 hroom.2
    refine ⟨st2, (op.spec d (live st.entries)).2 :: outs, ?_, by rw [c2, hroom.1], fun i k v he hne => ?_⟩
    · simp only [run]
      rw [e1, ok_bind, e2]; rfl
    · obtain ⟨v1, he1, hv1⟩ := h3 (fun hins => by rw [hins, if_pos rfl] at hc; omega) i k v he (hne op List.mem_cons_self)
      obtain ⟨v2, he2, hv2⟩ := s2 i k v1 he1 (fun o ho => hne o (List.mem_cons_of_mem _ ho))
      exact ⟨v2, he2, fun ha => by
        rw [hv2 fun o ho => ha o (List.mem_cons_of_mem _ ho), hv1 (ha op List.mem_cons_self)]⟩

/-- **C115** After any history: as long as the number of possibly inserting operations does not exceed `growth_left_`, the
array is not replaced, and every entry that is not erased stays in its slot (so that references and iterators to
it remain valid), with its value unless a new one is assigned to its key. -/
theorem C115_stable (hash : K → Nat) (d : V) (ops ops' : List (Op K V)) (hlen : ops.length + ops'.length < 2 ^ 60) (ha : Allowed d [] ops)
    {st : HS K V} {outs : List (Out V)} (hrun : run hash d HS.init ops = .ok (st, outs)) (hk : ops'.all Op.keeps = true)
    (hc : ops'.countP Op.inserts ≤ st.growth) :
    ∃ st' outs', run hash d st ops' = .ok (st', outs') ∧ st'.cap = st.cap ∧
      ∀ (i : Nat) (k : K) (v : V), entryAt st.entries i = .ok (k, v) → (∀ op ∈ ops', op.erases k = false) →
        ∃ v', entryAt st'.entries i = .ok (k, v') ∧ ((∀ op ∈ ops', op.assigns k = false) → v' = v) := by
  obtain ⟨st0, h1, S, hi, _⟩ := run_ok ops (Rep.init hash) (by omega) ha
  rw [h1] at hrun
  injection hrun with hrun
  injection hrun with hrun _
  subst hrun
  obtain ⟨st', outs', e, c, s⟩ := stable_run ops' (d := d) hi (by omega) hk hc
  refine ⟨st', outs', e, c, fun i k v he hne => ?_⟩
  have he' : st0.entries[i]? = some (some (k, v)) := by
    unfold entryAt at he
    split at he
    · next h => injection he with he; rw [h, he]
    · cases he
  obtain ⟨v', h2, h3⟩ := s i k v he' hne
  exact ⟨v', entryAt_of h2, h3⟩

theorem reallocs_run {hash : K → Nat} {d : V} : ∀ (ops : List (Op K V)) {N : Nat} {st : HS K V} {S : List Nat}, Inv hash N st S →
    N + ops.length < 2 ^ 60 → ops.all Op.keeps = true →
    ∃ st' S' outs, run hash d st ops = .ok (st', outs) ∧ Inv hash (N + ops.length) st' S' ∧
      st'.cap + 1 = 2 ^ reallocs hash d st ops * (st.cap + 1)
  | [], N, st, S, hi, _, _ => ⟨st, S, [], rfl, hi, by simp [reallocs]⟩
  | op :: ops, N, st, S, hi, hN, hk => by
    rw [List.length_cons] at hN
    rw [List.all_cons, Bool.and_eq_true] at hk
    have hpre : op.Pre (live st.entries) := (allowed_keeps (d := d) (ops := [op]) (by simp [hk.1])).1
    obtain ⟨st1, S1, e1, i1, _, _⟩ := exec_ok (d := d) hi (List.Perm.refl _) (by omega) hpre
    obtain ⟨h1, _, _⟩ := exec_inv hi (by omega) hk.1 e1
    obtain ⟨st2, S2, outs, e2, i2, c2⟩ := reallocs_run ops (d := d) i1 (by omega) hk.2
    refine ⟨st2, S2, (op.spec d (live st.entries)).2 :: outs, ?_, by rw [List.length_cons, show N + (ops.length + 1) = N + 1 + ops.length by omega]; exact i2, ?_⟩
    · simp only [run]
      rw [e1, ok_bind, e2]; rfl
    · simp only [reallocs, e1]
      rw [c2]
      rcases h1.cap with h | h
      · rw [if_pos h, h, Nat.zero_add]
      · rw [if_neg (by omega), h, Nat.pow_add, Nat.pow_one, Nat.mul_comm 2 (2 ^ _), Nat.mul_assoc]

/-- **C116** A table into which `n` operations insert, look up, assign and erase replaces its array at most
`log2 (3 n + 4)` times, and its capacity is at most `3 n + 3`. -/
theorem C116_reallocations (hash : K → Nat) (d : V) (ops : List (Op K V)) (hlen : ops.length < 2 ^ 60) (hk : ops.all Op.keeps = true) :
    ∃ st outs, run hash d HS.init ops = .ok (st, outs) ∧ st.cap ≤ 3 * ops.length + 3 ∧
      2 ^ reallocs hash d HS.init ops ≤ 3 * ops.length + 4 := by
  obtain ⟨S0, hi0, _⟩ := Rep.init (K := K) (V := V) hash
  obtain ⟨st, S, outs, e, hi, c⟩ := reallocs_run ops (d := d) hi0 (by omega) hk
  have hb := hi.cbnd
  have hcap := hi.cap
  refine ⟨st, outs, e, by omega, ?_⟩
  have h0 : (HS.init : HS K V).cap + 1 = 1 := rfl
  rw [h0, Nat.mul_one] at c
  omega

/-- Non-vacuity (C115): after 20 insertions the table has room for 8 more; erasing and inserting keeps key 5 in its slot. -/
example : ((run (fun k => k * 128) 0 HS.init ((List.range 20).map fun i => Op.emplace i i)).bind fun r =>
    (run (fun k => k * 128) 0 r.1 [.emplace 50 1, .erase 3, .assign 6 2, .bracket 70]).map fun q =>
      (r.1.growth, find (fun k => k * 128) r.1 5, find (fun k => k * 128) q.1 5, q.1.cap)) =
    .ok (8, .ok (some 22), .ok (some 22), 31) := by decide +kernel

/-- Non-vacuity (C116): 100 insertions replace the array 7 times. -/
example : reallocs (fun k => k * 128) 0 (HS.init : HS Nat Nat) ((List.range 100).map fun i => Op.emplace i i) = 7 := by decide +kernel

/-! ## Memory -/

theorem noErase_run {hash : K → Nat} {d : V} : ∀ (ops : List (Op K V)) {N : Nat} {st : HS K V} {S : List Nat}, Inv hash N st S →
    N + ops.length < 2 ^ 60 → ops.all Op.keeps = true → ops.all Op.noErase = true → S.count DELETED = 0 → st.cap ≤ 3 * st.size + 3 →
    ∃ st' outs, run hash d st ops = .ok (st', outs) ∧ st'.cap ≤ 3 * st'.size + 3
  | [], N, st, S, hi, _, _, _, _, h => ⟨st, [], rfl, h⟩
  | op :: ops, N, st, S, hi, hN, hk, hne, hd, h => by
    rw [List.length_cons] at hN
    rw [List.all_cons, Bool.and_eq_true] at hk hne
    have hpre : op.Pre (live st.entries) := (allowed_keeps (d := d) (ops := [op]) (by simp [hk.1])).1
    obtain ⟨st1, S1, e1, i1, p1, d1⟩ := exec_ok (d := d) hi (List.Perm.refl _) (by omega) hpre
    obtain ⟨h1, h2, h3⟩ := exec_inv hi (by omega) hk.1 e1
    have hsz : st.size ≤ st1.size := by
      rw [i1.size, hi.size, p1.length_eq]
      cases op with
      | emplace k v => simp only [Op.spec]; split <;> simp
      | bracket k => simp only [Op.spec]; split <;> simp
      | assign k v => simp only [Op.spec]; split <;> simp
      | erase k => exact absurd hne.1 (by simp [Op.noErase])
      | clear => exact absurd hk.1 (by simp [Op.keeps])
      | atKey k => simp only [Op.spec]; split <;> exact Nat.le_refl _
      | _ => simp only [Op.spec]; exact Nat.le_refl _
    have hb : st1.cap ≤ 3 * st1.size + 3 := by
      by_cases hg : st.growth = 0
      · rcases h1.cap with hc | hc
        · omega
        · have hcnt := hi.cnt
          have hcap := hi.cap
          have hpc := hi.core.pc
          unfold growthOf at hcnt
          split at hcnt <;> omega
      · have := (h1.room hg).1
        omega
    obtain ⟨st2, outs, e2, h4⟩ := noErase_run ops (d := d) i1 (by omega) hk.2 hne.2 (by have := d1 hne.1; omega) hb
    refine ⟨st2, (op.spec d (live st.entries)).2 :: outs, ?_, h4⟩
    simp only [run]
    rw [e1, ok_bind, e2]; rfl

/-- **C117** (partial): a table from which nothing is erased has a capacity of at most three times the number of its entries,
plus 3.

Missing: tables from which entries are erased, for which it does not hold (`C117_churn_violated`). -/
theorem C117_insert_only_partial (hash : K → Nat) (d : V) (ops : List (Op K V)) (hlen : ops.length < 2 ^ 60) (hk : ops.all Op.keeps = true)
    (hne : ops.all Op.noErase = true) :
    ∃ st outs, run hash d HS.init ops = .ok (st, outs) ∧ st.cap ≤ 3 * st.size + 3 :=
  noErase_run ops (Inv.init hash false) (by omega) hk hne rfl (Nat.zero_le _)

/-- The largest number of entries at any time. -/
def peak (d : V) : List (K × V) → List (Op K V) → Nat
  | m, [] => m.length
  | m, op :: ops => max m.length (peak d (op.spec d m).1 ops)

/-- Eight keys share the start of their probe sequence. -/
def churnHash (k : Nat) : Nat := ((k / 8 * 8) ^^^ 16777619) * 128

/-- Insert eight keys, erase them, go on with the next eight. -/
def churn (n : Nat) : List (Op Nat Nat) :=
  (List.range n).flatMap fun q => (List.range 8).map (fun j => Op.emplace (8 * q + j) 0) ++ (List.range 8).map fun j => Op.erase (8 * q + j)

/-- **C117 is violated**: a table that never holds more than 8 entries, and none in the end, has a capacity of 63: `erase` leaves
tombstones, and when they have used up `growth_left_` the capacity is doubled however few entries there are
(hash_storage.h:563-566, 579-581). -/
theorem C117_churn_violated :
    peak 0 [] (churn 5) = 8 ∧
    (run churnHash 0 HS.init (churn 5)).map (fun r => (r.1.size, r.1.cap)) = .ok (0, 63) := by decide +kernel

end Cista.HS

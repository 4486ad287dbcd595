import Verif.TypeHash.Model
import Verif.Hash.Lemmas
import Mathlib.Data.List.Perm.Subperm

/-!
# Lemmas about type hashes
-/
set_option linter.unusedVariables false
set_option linter.unusedSimpArgs false

namespace Cista.TypeHash

open Cista.Hash (HashT BASE_HASH hashCombine fnv)

attribute [local irreducible] lit num Wrap.tag Multi.tag hashCombine

unseal hashCombine in
theorem hashCombine_comm (a b : HashT) : hashCombine a b = hashCombine b a := by
  unfold hashCombine
  rw [BitVec.xor_comm]

/-! ## Names occurring in a type -/

/-- All names of pointers satisfy `Q`, all names of other scalars `Qs`, all integers `Qi`, all structs `P`. -/
def CTy.AllI (Q Qs : HashT → Prop) (Qi : HashT → Nat → Prop) (P : Nat → Prop) : CTy → Prop
  | .voidPtr b => Q b
  | .ptr b t => Q b ∧ t.AllI Q Qs Qi P
  | .int b n => Qi b n
  | .scalar b => Qs b
  | .named n => P n
  | .array _ t => t.AllI Q Qs Qi P
  | .pair a b => a.AllI Q Qs Qi P ∧ b.AllI Q Qs Qi P
  | .wrap _ t => t.AllI Q Qs Qi P
  | .multi _ _ t => ∀ i, (t i).AllI Q Qs Qi P
  | .string => True
  | .indexed t => t.AllI Q Qs Qi P
  | .strong _ t => t.AllI Q Qs Qi P
  | .fws a b _ => a.AllI Q Qs Qi P ∧ b.AllI Q Qs Qi P
  | .duration _ p r => p.AllI Q Qs Qi P ∧ r.AllI Q Qs Qi P
  | .timepoint _ c d => c.AllI Q Qs Qi P ∧ d.AllI Q Qs Qi P

/-- All names of pointers and integers satisfy `Q`, all names of other scalars `Qs`, all structs `P`. -/
def CTy.All (Q Qs : HashT → Prop) (P : Nat → Prop) (t : CTy) : Prop := t.AllI Q Qs (fun b _ => Q b) P

/-- The same type with other names for pointers and integers, and other sizes of integers. -/
def CTy.map (ρ : HashT → HashT) (σ : HashT → Nat → Nat) : CTy → CTy
  | .voidPtr b => .voidPtr (ρ b)
  | .ptr b t => .ptr (ρ b) (t.map ρ σ)
  | .int b n => .int (ρ b) (σ b n)
  | .scalar b => .scalar b
  | .named n => .named n
  | .array n t => .array n (t.map ρ σ)
  | .pair a b => .pair (a.map ρ σ) (b.map ρ σ)
  | .wrap w t => .wrap w (t.map ρ σ)
  | .multi w n t => .multi w n fun i => (t i).map ρ σ
  | .string => .string
  | .indexed t => .indexed (t.map ρ σ)
  | .strong g t => .strong g (t.map ρ σ)
  | .fws a b k => .fws (a.map ρ σ) (b.map ρ σ) k
  | .duration nm p r => .duration nm (p.map ρ σ) (r.map ρ σ)
  | .timepoint nm c d => .timepoint nm (c.map ρ σ) (d.map ρ σ)

/-- The same type with other names for pointers and integers. -/
def CTy.rename (ρ : HashT → HashT) (t : CTy) : CTy := t.map ρ fun _ n => n

/-- The same type with `k` bytes in the integer type `c`. -/
def CTy.resize (c : HashT) (k : Nat) (t : CTy) : CTy := t.map (fun b => b) fun b n => if b = c then k else n

theorem CTy.map_id : ∀ t : CTy, t.map (fun b => b) (fun _ n => n) = t := by
  intro t
  induction t with
  | multi w n t ih => simp only [CTy.map]; congr; funext i; exact ih i
  | _ => simp_all [CTy.map]

/-! ## Two runs side by side -/

/-- Both runs end in related states, or both fail in the same way. -/
def Both (R : St → St → Prop) : Res St → Res St → Prop
  | .ok s, .ok s' => R s s'
  | .error e, .error e' => e = e'
  | _, _ => False

variable {R : St → St → Prop}

theorem Both.bind {R' : St → St → Prop} {r r' : Res St} {k k' : St → Res St} (h : Both R r r') (hk : ∀ s s', R s s' → Both R' (k s) (k' s')) :
    Both R' (r >>= k) (r' >>= k') := by
  cases r with
  | ok s =>
    cases r' with
    | ok s' => exact hk s s' h
    | error e => exact h.elim
  | error e =>
    cases r' with
    | ok s' => exact h.elim
    | error e' => exact h

theorem Both.overFin {n : Nat} {f f' : Fin n → St → Res St} (hf : ∀ i s s', R s s' → Both R (f i s) (f' i s')) :
    ∀ k i s s', R s s' → Both R (overFin f k i s) (overFin f' k i s')
  | 0, i, s, s', h => h
  | k + 1, i, s, s', h => by
    unfold TypeHash.overFin
    split
    · exact (hf _ s s' h).bind fun s s' h => Both.overFin hf k _ s s' h
    · exact h

theorem both_comb {x : HashT} {s s' : St} (h : R (hashCombine s.1 x, s.2) (hashCombine s'.1 x, s'.2)) : Both R (comb x s) (comb x s') := h

/-- Related states stay related. -/
theorem both_hashT {fl fl' : Flavor} {rec rec' : Nat → St → Res St} {ρ : HashT → HashT} {σ : HashT → Nat → Nat} {Q Qs : HashT → Prop}
    {Qi : HashT → Nat → Prop} {P : Nat → Prop} (hfl : (fl = .dynamic ∧ fl' = .dynamic) ∨ ∃ m m', fl = .static m ∧ fl' = .static m')
    (hc : ∀ x s s', R s s' → R (hashCombine s.1 x, s.2) (hashCombine s'.1 x, s'.2))
    (ho : ∀ b, Q b → ∀ k k', (∀ s s', R s s' → Both R (k s) (k' s')) → ∀ s s', R s s' → Both R (once fl b k s) (once fl' (ρ b) k' s'))
    (hs : ∀ b, Qs b → ∀ k k', (∀ s s', R s s' → Both R (k s) (k' s')) → ∀ s s', R s s' → Both R (once fl b k s) (once fl' b k' s'))
    (hi : ∀ b n, Qi b n → ∀ s s', R s s' → Both R (hashT fl rec (.int b n) s) (hashT fl' rec' (.int (ρ b) (σ b n)) s'))
    (hr : ∀ n, P n → ∀ s s', R s s' → Both R (rec n s) (rec' n s')) :
    ∀ t : CTy, t.AllI Q Qs Qi P → ∀ s s', R s s' → Both R (hashT fl rec t s) (hashT fl' rec' (t.map ρ σ) s') := by
  have hcomb : ∀ x s s', R s s' → Both R (comb x s) (comb x s') := fun x s s' h => hc x s s' h
  have hlast : ∀ x s s', R s s' → Both R (.ok (hashCombine x s.1, s.2)) (.ok (hashCombine x s'.1, s'.2)) := by
    intro x s s' h
    rw [hashCombine_comm x, hashCombine_comm x]
    exact hc x s s' h
  intro t
  induction t with
  | voidPtr b => intro ha s s' h; simp only [hashT, CTy.map]; exact ho b ha _ _ (hcomb _) s s' h
  | ptr b t ih =>
    intro ha s s' h; simp only [hashT, CTy.map]
    exact ho b ha.1 _ _ (fun s s' h => (hcomb _ s s' h).bind (ih ha.2)) s s' h
  | int b n => intro ha s s' h; exact hi b n ha s s' h
  | scalar b => intro ha s s' h; simp only [hashT, CTy.map]; exact hs b ha _ _ (hcomb _) s s' h
  | named n => intro ha s s' h; simp only [hashT, CTy.map]; exact hr n ha s s' h
  | array n t ih =>
    intro ha s s' h
    rcases hfl with ⟨rfl, rfl⟩ | ⟨m, m', rfl, rfl⟩ <;> simp only [hashT, CTy.map]
    · exact (hcomb _ s s' h).bind fun s s' h => (hcomb _ s s' h).bind (ih ha)
    · exact (ih ha s s' h).bind fun s s' h => (hcomb _ s s' h).bind (hcomb _)
  | pair a b iha ihb =>
    intro ha s s' h
    rcases hfl with ⟨rfl, rfl⟩ | ⟨m, m', rfl, rfl⟩ <;> simp only [hashT, CTy.map]
    · exact (iha ha.1 s s' h).bind fun s s' h => (ihb ha.2 s s' h).bind (hcomb _)
    · exact (hcomb _ s s' h).bind fun s s' h => (iha ha.1 s s' h).bind (ihb ha.2)
  | wrap w t ih => intro ha s s' h; simp only [hashT, CTy.map]; exact (hcomb _ s s' h).bind (ih ha)
  | multi w n t ih =>
    intro ha s s' h; simp only [hashT, CTy.map]
    exact (hcomb _ s s' h).bind (Both.overFin (fun i => ih i (ha i)) _ _)
  | string => intro ha s s' h; simp only [hashT, CTy.map]; exact hcomb _ s s' h
  | indexed t ih => intro ha s s' h; simp only [hashT, CTy.map]; exact ih ha s s' h
  | strong g t ih =>
    intro ha s s' h
    rcases hfl with ⟨rfl, rfl⟩ | ⟨m, m', rfl, rfl⟩ <;> simp only [hashT, CTy.map]
    · exact (hcomb _ s s' h).bind fun s s' h => (ih ha s s' h).bind (hlast _)
    · exact ih ha s s' h
  | fws a b k iha ihb =>
    intro ha s s' h; simp only [hashT, CTy.map]
    exact (hcomb _ s s' h).bind fun s s' h => (iha ha.1 s s' h).bind fun s s' h => (ihb ha.2 s s' h).bind (hlast _)
  | duration nm p r ihp ihr =>
    intro ha s s' h
    rcases hfl with ⟨rfl, rfl⟩ | ⟨m, m', rfl, rfl⟩ <;> simp only [hashT, CTy.map]
    · exact (hcomb _ s s' h).bind fun s s' h => (ihr ha.2 s s' h).bind (hlast _)
    · exact (hcomb _ s s' h).bind fun s s' h => (ihr ha.2 s s' h).bind (ihp ha.1)
  | timepoint nm c d ihc ihd =>
    intro ha s s' h
    rcases hfl with ⟨rfl, rfl⟩ | ⟨m, m', rfl, rfl⟩ <;> simp only [hashT, CTy.map]
    · exact (hcomb _ s s' h).bind fun s s' h => (ihd ha.2 s s' h).bind (hlast _)
    · exact (hcomb _ s s' h).bind fun s s' h => (ihd ha.2 s s' h).bind (ihc ha.1)

/-! ## What a run does to the list of types -/

/-- The run ends, with a state related to the first one. -/
def Ends (P : St → Prop) : Res St → Prop
  | .ok s => P s
  | .error _ => False

theorem Ends.bind {P Q : St → Prop} {r : Res St} {k : St → Res St} (h : Ends P r) (hk : ∀ s, P s → Ends Q (k s)) : Ends Q (r >>= k) := by
  cases r with
  | ok s => exact hk s h
  | error e => exact h.elim

theorem Ends.mono {P Q : St → Prop} {r : Res St} (h : Ends P r) (hk : ∀ s, P s → Q s) : Ends Q r := by
  cases r with
  | ok s => exact hk s h
  | error e => exact h.elim

/-- There is room for all types of `B`. -/
def Room (fl : Flavor) (B : List HashT) : Prop :=
  match fl with
  | .dynamic => True
  | .static m => B.length ≤ m

theorem findIdx?_none {l : List HashT} {b : HashT} : l.findIdx? (· == b) = none ↔ b ∉ l := by
  rw [List.findIdx?_eq_none_iff]
  constructor
  · intro h hb
    have := h b hb
    simp at this
  · intro h x hx
    have : x ≠ b := fun hxb => h (hxb ▸ hx)
    simpa using this

theorem length_lt_of_nodup {l B : List HashT} (hn : l.Nodup) (hi : ∀ b ∈ l, b ∈ B) {b : HashT} (hb : b ∈ B) (hl : b ∉ l) : l.length < B.length := by
  have h1 : (b :: l).Nodup := List.nodup_cons.2 ⟨hl, hn⟩
  have h2 : (b :: l) ⊆ B := by
    intro x hx
    rcases List.mem_cons.1 hx with rfl | hx
    · exact hb
    · exact hi x hx
  exact (List.subperm_of_subset h1 h2).length_le

/-- Inside of `B`, without repetitions. -/
def Fine (B : List HashT) (s : St) : Prop := s.2.Nodup ∧ ∀ b ∈ s.2, b ∈ B

/-- A step from a fine state ends in a fine state with more types. -/
def Good (B : List HashT) (s : St) (r : Res St) : Prop := Ends (fun s' => Fine B s' ∧ ∀ b ∈ s.2, b ∈ s'.2) r

variable {B : List HashT} {fl : Flavor}

theorem Good.bind {s : St} {r : Res St} {k : St → Res St} (h : Good B s r)
    (hk : ∀ s', Fine B s' → (∀ b ∈ s.2, b ∈ s'.2) → Good B s' (k s')) : Good B s (r >>= k) := by
  refine Ends.bind h fun s' hs' => ?_
  exact (hk s' hs'.1 hs'.2).mono fun s'' h'' => ⟨h''.1, fun b hb => h''.2 b (hs'.2 b hb)⟩

theorem good_comb {s : St} (h : Fine B s) (x : HashT) : Good B s (comb x s) := ⟨⟨h.1, h.2⟩, fun b hb => hb⟩

theorem good_last {s : St} (h : Fine B s) (x : HashT) : Good B s (.ok (hashCombine x s.1, s.2)) := ⟨⟨h.1, h.2⟩, fun b hb => hb⟩

theorem good_once (hfl : Room fl B) {b : HashT} (hb : b ∈ B) {k : St → Res St} {s : St} (h : Fine B s)
    (hk : ∀ s', Fine B s' → b ∉ s.2 → s'.2 = s.2 ++ [b] → Good B s' (k s')) : Good B s (once fl b k s) := by
  unfold once
  cases hi : s.2.findIdx? (· == b) with
  | some i => exact good_comb h _
  | none =>
    have hn := findIdx?_none.1 hi
    have hf : Fine B ((s.1, s.2 ++ [b]) : St) := by
      refine ⟨?_, fun x hx => ?_⟩
      · rw [List.nodup_append]
        exact ⟨h.1, by simp, fun x hx y hy hxy => by simp at hy; subst hy; subst hxy; exact hn hx⟩
      · rcases List.mem_append.1 hx with hx | hx
        · exact h.2 x hx
        · simp at hx; subst hx; exact hb
    have hg : Good B s (k (s.1, s.2 ++ [b])) :=
      (hk _ hf hn rfl).mono fun s' h' => ⟨h'.1, fun x hx => h'.2 x (List.mem_append_left _ hx)⟩
    cases fl with
    | dynamic => exact hg
    | static m =>
      have hlt : s.2.length < m := Nat.lt_of_lt_of_le (length_lt_of_nodup h.1 h.2 hb hn) hfl
      simp only [hlt, if_true]
      exact hg

theorem good_overFin {n : Nat} {f : Fin n → St → Res St} {s0 : St} (hf : ∀ i s, Fine B s → (∀ b ∈ s0.2, b ∈ s.2) → Good B s (f i s)) :
    ∀ k i s, Fine B s → (∀ b ∈ s0.2, b ∈ s.2) → Good B s (overFin f k i s)
  | 0, i, s, h, _ => ⟨h, fun b hb => hb⟩
  | k + 1, i, s, h, hsub => by
    unfold overFin
    split
    · exact (hf _ s h hsub).bind fun s' h' hs' => good_overFin hf k _ s' h' fun b hb => hs' b (hsub b hb)
    · exact ⟨h, fun b hb => hb⟩

/-- With a good treatment of the structs, the run ends. -/
theorem good_hashT (hfl : Room fl B) {rec : Nat → St → Res St} {P : Nat → Prop} {s0 : St}
    (hr : ∀ n, P n → ∀ s, Fine B s → (∀ b ∈ s0.2, b ∈ s.2) → Good B s (rec n s)) :
    ∀ t : CTy, t.All (· ∈ B) (· ∈ B) P → ∀ s, Fine B s → (∀ b ∈ s0.2, b ∈ s.2) → Good B s (hashT fl rec t s) := by
  intro t
  induction t with
  | voidPtr b => intro ha s h hs; simp only [hashT]; exact good_once hfl ha h fun s' h' _ _ => good_comb h' _
  | ptr b t ih =>
    intro ha s h hs; simp only [hashT]
    exact good_once hfl ha.1 h fun s' h' _ he => (good_comb h' _).bind fun s'' h'' hs'' => ih ha.2 s'' h'' fun b hb =>
      hs'' b (by rw [he]; exact List.mem_append_left _ (hs b hb))
  | int b n => intro ha s h hs; simp only [hashT]; exact good_once hfl ha h fun s' h' _ _ => (good_comb h' _).bind fun s'' h'' _ => good_comb h'' _
  | scalar b => intro ha s h hs; simp only [hashT]; exact good_once hfl ha h fun s' h' _ _ => good_comb h' _
  | named n => intro ha s h hs; simp only [hashT]; exact hr n ha s h hs
  | array n t ih =>
    intro ha s h hs
    cases fl with
    | dynamic => simp only [hashT]; exact (good_comb h _).bind fun s h hs' => (good_comb h _).bind fun s'' h hs'' => ih ha s'' h fun b hb => hs'' b (hs' b (hs b hb))
    | static m => simp only [hashT]; exact (ih ha s h hs).bind fun s h hs' => (good_comb h _).bind fun s'' h hs'' => good_comb h _
  | pair a b iha ihb =>
    intro ha s h hs
    cases fl with
    | dynamic => simp only [hashT]; exact (iha ha.1 s h hs).bind fun s h hs' => (ihb ha.2 s h fun b hb => hs' b (hs b hb)).bind fun s h _ => good_comb h _
    | static m =>
      simp only [hashT]
      exact (good_comb h _).bind fun s h hs' => (iha ha.1 s h fun b hb => hs' b (hs b hb)).bind fun s'' h hs'' => ihb ha.2 s'' h fun b hb =>
        hs'' b (hs' b (hs b hb))
  | wrap w t ih => intro ha s h hs; simp only [hashT]; exact (good_comb h _).bind fun s h hs' => ih ha s h fun b hb => hs' b (hs b hb)
  | multi w n t ih =>
    intro ha s h hs; simp only [hashT]
    exact (good_comb h _).bind fun s h hs' => good_overFin (fun i => ih i (ha i)) _ _ s h fun b hb => hs' b (hs b hb)
  | string => intro ha s h hs; simp only [hashT]; exact good_comb h _
  | indexed t ih => intro ha s h hs; simp only [hashT]; exact ih ha s h hs
  | strong g t ih =>
    intro ha s h hs
    cases fl with
    | dynamic => simp only [hashT]; exact (good_comb h _).bind fun s h hs' => (ih ha s h fun b hb => hs' b (hs b hb)).bind fun s h _ => good_last h _
    | static m => simp only [hashT]; exact ih ha s h hs
  | fws a b k iha ihb =>
    intro ha s h hs; simp only [hashT]
    exact (good_comb h _).bind fun s h hs1 => (iha ha.1 s h fun b hb => hs1 b (hs b hb)).bind fun s h hs2 =>
      (ihb ha.2 s h fun b hb => hs2 b (hs1 b (hs b hb))).bind fun s h _ => good_last h _
  | duration nm p r ihp ihr =>
    intro ha s h hs; simp only [hashT]
    refine (good_comb h _).bind fun s h hs1 => (ihr ha.2 s h fun b hb => hs1 b (hs b hb)).bind fun s h hs2 => ?_
    cases fl with
    | dynamic => exact good_last h _
    | static m => exact ihp ha.1 s h fun b hb => hs2 b (hs1 b (hs b hb))
  | timepoint nm c d ihc ihd =>
    intro ha s h hs; simp only [hashT]
    refine (good_comb h _).bind fun s h hs1 => (ihd ha.2 s h fun b hb => hs1 b (hs b hb)).bind fun s h hs2 => ?_
    cases fl with
    | dynamic => exact good_last h _
    | static m => exact ihc ha.1 s h fun b hb => hs2 b (hs1 b (hs b hb))

/-! ## Termination -/

/-- Number of structs below `K` not seen yet. -/
def unseen (env : Env) (K : Nat) (s : St) : Nat := (List.range K).countP fun n => decide (env.base n ∉ s.2)

theorem unseen_mono {env : Env} {K : Nat} {s s' : St} (h : ∀ b ∈ s.2, b ∈ s'.2) : unseen env K s' ≤ unseen env K s := by
  refine List.countP_mono_left fun n _ hn => ?_
  simp only [decide_eq_true_eq] at hn ⊢
  exact fun hm => hn (h _ hm)

theorem countP_lt {l : List Nat} {p q : Nat → Bool} (h : ∀ x ∈ l, q x = true → p x = true) {y : Nat} (hy : y ∈ l) (hp : p y = true) (hq : q y = false) :
    l.countP q < l.countP p := by
  induction l with
  | nil => simp at hy
  | cons x l ih =>
    rw [List.countP_cons, List.countP_cons]
    have hmono : l.countP q ≤ l.countP p := List.countP_mono_left fun z hz => h z (List.mem_cons_of_mem _ hz)
    rcases List.mem_cons.1 hy with rfl | hy
    · rw [hp, hq]
      simp only [if_true, Bool.false_eq_true, if_false]
      omega
    · have := ih (fun z hz => h z (List.mem_cons_of_mem _ hz)) hy
      have hx := h x (by simp)
      cases hqx : q x with
      | true => rw [hx hqx]; simp only [if_true]; omega
      | false => simp only [Bool.false_eq_true, if_false]; omega

theorem unseen_lt {env : Env} {K n : Nat} {s s' : St} (hn : n < K) (hb : env.base n ∉ s.2) (h : s'.2 = s.2 ++ [env.base n]) :
    unseen env K s' < unseen env K s := by
  refine countP_lt (fun m _ hm => ?_) (List.mem_range.2 hn) (by simpa using hb) (by simp [h])
  simp only [decide_eq_true_eq] at hm ⊢
  exact fun hm' => hm (by rw [h]; exact List.mem_append_left _ hm')

/-- All names of the program: of the types and of the first `K` structs; members only use these structs. -/
structure Program (env : Env) (K : Nat) (B : List HashT) : Prop where
  base : ∀ n, n < K → env.base n ∈ B
  field : ∀ n, n < K → ∀ i, (env.field n i).All (· ∈ B) (· ∈ B) (· < K)

theorem good_named (hfl : Room fl B) {env : Env} {K : Nat} (hP : Program env K B) : ∀ f n s, n < K → Fine B s → unseen env K s < f →
    Good B s (hashNamed fl env f n s)
  | 0, n, s, hn, h, hf => by omega
  | f + 1, n, s, hn, h, hf => by
    unfold hashNamed
    refine good_once hfl (hP.base n hn) h fun s' h' hb he => ?_
    have hlt := unseen_lt (env := env) hn hb he
    refine (good_comb h' _).bind fun s1 h1 hs1 => ?_
    refine good_overFin (s0 := s') (fun i s2 h2 hs2 => ?_) _ _ s1 h1 hs1
    refine good_hashT (s0 := s') hfl (P := (· < K)) (fun m hm s3 h3 hs3 => ?_) _ (hP.field n hn i) s2 h2 hs2
    have := unseen_mono (env := env) (K := K) hs3
    exact good_named hfl hP f m s3 hm h3 (by omega)

/-! ## More fuel -/

/-- More fuel does not change a result. -/
def Stable (r r' : Res St) : Prop := r ≠ .error .diverge → r' = r

theorem Stable.bind {r r' : Res St} {k k' : St → Res St} (h : Stable r r') (hk : ∀ s, Stable (k s) (k' s)) : Stable (r >>= k) (r' >>= k') := by
  intro hne
  cases r with
  | error e =>
    have : r' = .error e := h fun he => hne (by rw [he]; rfl)
    rw [this]; rfl
  | ok s =>
    have : r' = .ok s := h (by simp)
    rw [this]
    exact hk s hne

theorem Stable.refl (r : Res St) : Stable r r := fun _ => rfl

theorem Stable.once {b : HashT} {k k' : St → Res St} (hk : ∀ s, Stable (k s) (k' s)) (s : St) : Stable (once fl b k s) (once fl b k' s) := by
  unfold TypeHash.once
  split
  · exact Stable.refl _
  · cases fl with
    | dynamic => exact hk _
    | static m =>
      dsimp only
      split
      · exact hk _
      · exact Stable.refl _

theorem Stable.overFin {n : Nat} {f f' : Fin n → St → Res St} (hf : ∀ i s, Stable (f i s) (f' i s)) :
    ∀ k i s, Stable (overFin f k i s) (overFin f' k i s)
  | 0, i, s => Stable.refl _
  | k + 1, i, s => by
    unfold TypeHash.overFin
    split
    · exact (hf _ s).bind fun s => Stable.overFin hf k _ s
    · exact Stable.refl _

theorem stable_hashT {rec rec' : Nat → St → Res St} (hr : ∀ n s, Stable (rec n s) (rec' n s)) : ∀ (t : CTy) (s : St),
    Stable (hashT fl rec t s) (hashT fl rec' t s) := by
  intro t
  induction t with
  | voidPtr b => intro s; simp only [hashT]; exact Stable.refl _
  | ptr b t ih => intro s; simp only [hashT]; exact Stable.once (fun s => (Stable.refl _).bind ih) s
  | int b n => intro s; simp only [hashT]; exact Stable.refl _
  | scalar b => intro s; simp only [hashT]; exact Stable.refl _
  | named n => intro s; simp only [hashT]; exact hr n s
  | array n t ih =>
    intro s
    cases fl with
    | dynamic => simp only [hashT]; exact (Stable.refl _).bind fun s => (Stable.refl _).bind ih
    | static m => simp only [hashT]; exact (ih s).bind fun s => Stable.refl _
  | pair a b iha ihb =>
    intro s
    cases fl with
    | dynamic => simp only [hashT]; exact (iha s).bind fun s => (ihb s).bind fun s => Stable.refl _
    | static m => simp only [hashT]; exact (Stable.refl _).bind fun s => (iha s).bind ihb
  | wrap w t ih => intro s; simp only [hashT]; exact (Stable.refl _).bind ih
  | multi w n t ih => intro s; simp only [hashT]; exact (Stable.refl _).bind (Stable.overFin ih _ _)
  | string => intro s; simp only [hashT]; exact Stable.refl _
  | indexed t ih => intro s; simp only [hashT]; exact ih s
  | strong g t ih =>
    intro s
    cases fl with
    | dynamic => simp only [hashT]; exact (Stable.refl _).bind fun s => (ih s).bind fun s => Stable.refl _
    | static m => simp only [hashT]; exact ih s
  | fws a b k iha ihb => intro s; simp only [hashT]; exact (Stable.refl _).bind fun s => (iha s).bind fun s => (ihb s).bind fun s => Stable.refl _
  | duration nm p r ihp ihr =>
    intro s; simp only [hashT]
    refine (Stable.refl _).bind fun s => (ihr s).bind fun s => ?_
    cases fl with
    | dynamic => exact Stable.refl _
    | static m => exact ihp s
  | timepoint nm c d ihc ihd =>
    intro s; simp only [hashT]
    refine (Stable.refl _).bind fun s => (ihd s).bind fun s => ?_
    cases fl with
    | dynamic => exact Stable.refl _
    | static m => exact ihc s

theorem stable_named {env : Env} : ∀ f g n s, f ≤ g → Stable (hashNamed fl env f n s) (hashNamed fl env g n s)
  | 0, g, n, s, _ => fun h => absurd rfl h
  | f + 1, 0, n, s, h => by omega
  | f + 1, g + 1, n, s, h => by
    unfold hashNamed
    exact Stable.once (fun s => (Stable.refl _).bind (Stable.overFin (fun i s =>
      stable_hashT (fun m s => stable_named f g m s (by omega)) _ s) _ _)) s

end Cista.TypeHash

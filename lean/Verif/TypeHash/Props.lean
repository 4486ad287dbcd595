import Verif.TypeHash.Change
import Verif.Ser.Violated

/-!
# Properties of type hashes (C56, C57)
-/
set_option linter.unusedVariables false

namespace Cista.TypeHash

open Cista.Hash (HashT BASE_HASH hashCombine)

attribute [local irreducible] lit num Wrap.tag Multi.tag hashCombine

/-! ## Example program

```
struct node { int32_t id; node* next; vector<edge> out; };
struct edge { node* to; array<float, 3> w; };
```
-/

/-- Names (hashes of name and size) of `node`, `edge`, `node*`, `int32_t`, `float`, `uint16_t`. -/
abbrev nNode : HashT := 101#64
abbrev nEdge : HashT := 102#64
abbrev nPtr : HashT := 103#64
abbrev nInt : HashT := 104#64
abbrev nFloat : HashT := 105#64

def demoFields (len : Nat) : (n : Nat) → Fin (if n = 0 then 3 else if n = 1 then 2 else 0) → CTy
  | 0, ⟨0, _⟩ => .int nInt 4
  | 0, ⟨1, _⟩ => .ptr nPtr (.named 0)
  | 0, ⟨_, _⟩ => .wrap .vector (.named 1)
  | 1, ⟨0, _⟩ => .ptr nPtr (.named 0)
  | 1, ⟨_, _⟩ => .array len (.scalar nFloat)
  | _, _ => .string

/-- The example with arrays of `len` floats. -/
def demoEnv (len : Nat) : Env where
  base := fun n => if n = 0 then nNode else if n = 1 then nEdge else 0#64
  arity := fun n => if n = 0 then 3 else if n = 1 then 2 else 0
  field := demoFields len

abbrev demoNames : List HashT := [nNode, nEdge, nPtr, nInt, nFloat]

theorem demo_program (len : Nat) : Program (demoEnv len) 2 demoNames := by
  refine ⟨fun n hn => ?_, fun n hn i => ?_⟩
  · rcases (by omega : n = 0 ∨ n = 1) with rfl | rfl <;> simp [demoEnv]
  · rcases (by omega : n = 0 ∨ n = 1) with rfl | rfl
    · match i with
      | ⟨0, _⟩ => exact (by decide : nInt ∈ demoNames)
      | ⟨1, _⟩ => exact ⟨(by decide : nPtr ∈ demoNames), (by decide : 0 < 2)⟩
      | ⟨2, _⟩ => exact (by decide : 1 < 2)
    · match i with
      | ⟨0, _⟩ => exact ⟨(by decide : nPtr ∈ demoNames), (by decide : 0 < 2)⟩
      | ⟨1, _⟩ => exact (by decide : nFloat ∈ demoNames)

def demoPointee (b : HashT) : Option CTy := if b = nPtr then some (.named 0) else none

theorem demo_base_ne (len : Nat) (b : HashT) (hb : b ≠ nNode ∧ b ≠ nEdge) (n : Nat) (hn : n < 2) : (demoEnv len).base n ≠ b := by
  rcases (by omega : n = 0 ∨ n = 1) with rfl | rfl
  · exact fun h => hb.1 h.symm
  · exact fun h => hb.2 h.symm

theorem demo_names (len : Nat) : Names (demoEnv len) 2 demoPointee := by
  refine ⟨fun n m hn hm h => ?_, fun n hn => ?_, fun n hn i => ?_⟩
  · rcases (by omega : n = 0 ∨ n = 1) with rfl | rfl <;> rcases (by omega : m = 0 ∨ m = 1) with rfl | rfl
    · rfl
    · exact absurd h (by decide : nNode ≠ nEdge)
    · exact absurd h (by decide : nEdge ≠ nNode)
    · rfl
  · rcases (by omega : n = 0 ∨ n = 1) with rfl | rfl <;> rfl
  · rcases (by omega : n = 0 ∨ n = 1) with rfl | rfl
    · match i with
      | ⟨0, _⟩ => exact ⟨rfl, demo_base_ne len nInt (by decide)⟩
      | ⟨1, _⟩ => exact ⟨rfl, demo_base_ne len nPtr (by decide), (by decide : 0 < 2)⟩
      | ⟨2, _⟩ => exact (by decide : 1 < 2)
    · match i with
      | ⟨0, _⟩ => exact ⟨rfl, demo_base_ne len nPtr (by decide), (by decide : 0 < 2)⟩
      | ⟨1, _⟩ => exact ⟨rfl, demo_base_ne len nFloat (by decide)⟩

/-! ## C56: type hashes are well defined -/

/-- C56: for every type made of finitely many structs — also mutually recursive ones — `type_hash` terminates with a value;
`static_type_hash` does if there is room for all the names.  The nesting of structs never exceeds their number. -/
theorem C56_terminates {fl : Flavor} {env : Env} {K : Nat} {B : List HashT} (hP : Program env K B) (hfl : Room fl B) {t : CTy}
    (ht : t.All (· ∈ B) (· ∈ B) (· < K)) : ∃ h, ∀ f, K < f → typeHash fl env f t = .ok h := by
  have hun : ∀ s : St, unseen env K s ≤ K := fun s => by
    have := List.countP_le_length (l := List.range K) (p := fun n => decide (env.base n ∉ s.2))
    rwa [List.length_range] at this
  have hg := good_hashT (s0 := (BASE_HASH, [])) hfl (P := (· < K)) (rec := hashNamed fl env (K + 1))
    (fun n hn s hs _ => good_named hfl hP (K + 1) n s hn hs (Nat.lt_succ_of_le (hun s))) t ht (BASE_HASH, []) ⟨List.nodup_nil, by simp⟩ (by simp)
  cases hr : hashT fl (hashNamed fl env (K + 1)) t (BASE_HASH, []) with
  | error e => rw [hr] at hg; exact hg.elim
  | ok s =>
    refine ⟨s.1, fun f hf => ?_⟩
    have := stable_hashT (fl := fl) (fun n s => stable_named (K + 1) f n s hf) t (BASE_HASH, []) (by rw [hr]; simp)
    unfold typeHash
    rw [this, hr]
    rfl

example : ∃ h, ∀ f, 2 < f → typeHash .dynamic (demoEnv 3) f (.named 0) = .ok h := C56_terminates (fl := .dynamic) (demo_program 3) trivial (by decide : 0 < 2)

example : ∃ h, ∀ f, 2 < f → typeHash (.static 128) (demoEnv 3) f (.named 0) = .ok h :=
  C56_terminates (fl := .static 128) (demo_program 3) (by decide : 5 ≤ 128) (by decide : 0 < 2)

/-- C56: names do not matter.  If structs, pointers and integers get other names without new coincidences (other scalars keep their names),
the hash stays the same. -/
theorem C56_names {fl : Flavor} {env : Env} {K : Nat} {B : List HashT} (hP : Program env K B) {ρ : HashT → HashT}
    (hρ : ∀ a ∈ B, ∀ b ∈ B, ρ a = ρ b → a = b)
    (hsc : ∀ n, n < K → ∀ i, (env.field n i).AllI (fun _ => True) (fun b => ρ b = b) (fun _ _ => True) (fun _ => True)) {t : CTy}
    (ht : t.All (· ∈ B) (· ∈ B) (· < K)) (hst : t.AllI (fun _ => True) (fun b => ρ b = b) (fun _ _ => True) (fun _ => True)) (f : Nat) :
    typeHash fl (env.rename ρ) f (t.rename ρ) = typeHash fl env f t := by
  have hand : ∀ t : CTy, t.All (· ∈ B) (· ∈ B) (· < K) → t.AllI (fun _ => True) (fun b => ρ b = b) (fun _ _ => True) (fun _ => True) →
      t.All (· ∈ B) (fun b => b ∈ B ∧ ρ b = b) (· < K) := by
    intro t h h'
    unfold CTy.All at h ⊢
    induction t with
    | voidPtr b => exact h
    | ptr b t ih => exact ⟨h.1, ih h.2 h'.2⟩
    | int b n => exact h
    | scalar b => exact ⟨h, h'⟩
    | named n => exact h
    | array n t ih => exact ih h h'
    | pair a b iha ihb => exact ⟨iha h.1 h'.1, ihb h.2 h'.2⟩
    | wrap w t ih => exact ih h h'
    | multi w n t ih => exact fun i => ih i (h i) (h' i)
    | string => exact h
    | indexed t ih => exact ih h h'
    | strong g t ih => exact ih h h'
    | fws a b k iha ihb => exact ⟨iha h.1 h'.1, ihb h.2 h'.2⟩
    | duration nm p r ihp ihr => exact ⟨ihp h.1 h'.1, ihr h.2 h'.2⟩
    | timepoint nm c d ihc ihd => exact ⟨ihc h.1 h'.1, ihd h.2 h'.2⟩
  have key := renamed_hashT (fl := fl) (S := (· ∈ B)) (fun a b ha hb => hρ a ha b hb) (P := (· < K))
    (renamed_named (fl := fl) (env := env) (K := K) (fun a b ha hb => hρ a ha b hb) hP.base
      (fun n hn i => hand _ (hP.field n hn i) (hsc n hn i)) f) t (hand t ht hst) (BASE_HASH, []) (BASE_HASH, [])
    ⟨rfl, rfl, by simp⟩
  unfold typeHash
  revert key
  cases hashT fl (hashNamed fl env f) t (BASE_HASH, []) with
  | error e =>
    cases hashT fl (hashNamed fl (env.rename ρ) f) (t.rename ρ) (BASE_HASH, []) with
    | error e' => intro h; rw [show e = e' from h]
    | ok s => exact fun h => h.elim
  | ok s =>
    cases hashT fl (hashNamed fl (env.rename ρ) f) (t.rename ρ) (BASE_HASH, []) with
    | error e' => exact fun h => h.elim
    | ok s' => intro h; show Except.ok s'.1 = Except.ok s.1; rw [h.1]

/-- Other names for the example: everything but `float`. -/
def demoRho (b : HashT) : HashT := if b = nFloat then b else b + 1000#64

theorem demoRho_inj : ∀ a ∈ demoNames, ∀ b ∈ demoNames, demoRho a = demoRho b → a = b := by
  intro a ha b hb h
  have h1 : ∀ x : HashT, x ∈ demoNames → x.toNat < 200 := by
    intro x hx
    simp only [List.mem_cons, List.not_mem_nil, or_false] at hx
    rcases hx with rfl | rfl | rfl | rfl | rfl <;> decide
  have ha' := h1 a ha
  have hb' := h1 b hb
  unfold demoRho at h
  have hf : nFloat.toNat = 105 := rfl
  split at h <;> split at h
  · exact h
  · bv_omega
  · bv_omega
  · bv_omega

example (f : Nat) : typeHash .dynamic ((demoEnv 3).rename demoRho) f (.named 0) = typeHash .dynamic (demoEnv 3) f (.named 0) :=
  C56_names (t := .named 0) (demo_program 3) demoRho_inj (fun n hn i => by
    rcases (by omega : n = 0 ∨ n = 1) with rfl | rfl
    · match i with
      | ⟨0, _⟩ => trivial
      | ⟨1, _⟩ => exact ⟨trivial, trivial⟩
      | ⟨2, _⟩ => trivial
    · match i with
      | ⟨0, _⟩ => exact ⟨trivial, trivial⟩
      | ⟨1, _⟩ => exact (by decide : demoRho nFloat = nFloat)) (by decide : 0 < 2) trivial f

/-! ## C57: the version word tells changed types apart -/

theorem typeHash_fuel {fl : Flavor} {env : Env} {f g : Nat} {t : CTy} {h : HashT} (hr : typeHash fl env f t = .ok h) (hfg : f ≤ g) :
    ∃ s, hashT fl (hashNamed fl env g) t (BASE_HASH, []) = .ok s ∧ s.1 = h := by
  unfold typeHash at hr
  cases hs : hashT fl (hashNamed fl env f) t (BASE_HASH, []) with
  | error e => rw [hs] at hr; cases hr
  | ok s =>
    rw [hs] at hr
    cases hr
    exact ⟨s, by rw [stable_hashT (fl := fl) (fun n s => stable_named f g n s hfg) t (BASE_HASH, []) (by rw [hs]; simp), hs], rfl⟩

/-- C57: a type that differs in one place of its own structure has another hash. -/
theorem C57_type_change {fl : Flavor} {env : Env} {t u : CTy} (he : Edit fl t u) {f f' : Nat} {h h' : HashT}
    (h1 : typeHash fl env f t = .ok h) (h2 : typeHash fl env f' u = .ok h') : h ≠ h' := by
  obtain ⟨s, hs, rfl⟩ := typeHash_fuel h1 (Nat.le_max_left f f')
  obtain ⟨s', hs', rfl⟩ := typeHash_fuel h2 (Nat.le_max_right f f')
  have hkE : Keeps (fun s s' : St => s' = s) := ⟨fun s s' h => by rw [h], fun x s s' h => by rw [h]⟩
  have hkN : Keeps (fun s s' : St => s'.2 = s.2 ∧ s'.1 ≠ s.1) := ⟨fun s s' h => h.1, fun x s s' h => ⟨h.1, hashCombine_ne x h.2⟩⟩
  have haN : ∀ b (s s' : St), (s'.2 = s.2 ∧ s'.1 ≠ s.1) → (s'.2 ++ [b] = s.2 ++ [b] ∧ s'.1 ≠ s.1) := fun b s s' h => ⟨by rw [h.1], h.2⟩
  have hself : ∀ f n s s', (s'.2 = s.2 ∧ s'.1 ≠ s.1) →
      Both (fun s s' : St => s'.2 = s.2 ∧ s'.1 ≠ s.1) (hashNamed fl env f n s) (hashNamed fl env f n s') := by
    intro f
    induction f with
    | zero => exact fun n s s' h => rfl
    | succ f ih =>
      intro n s s' h
      unfold hashNamed
      refine hkN.once (fun s s' h _ => haN _ s s' h) (fun s s' h => ?_) h
      refine (both_comb (R := fun s s' : St => s'.2 = s.2 ∧ s'.1 ≠ s.1) (hkN.comb _ s s' h)).bind fun s s' h => ?_
      refine Both.overFin (fun i s s' h => ?_) _ _ s s' h
      exact keeps_hashT hkN (Q := fun _ => True) (fun b _ s s' h _ => haN b s s' h) (P := fun _ => True) (fun n _ => ih n) _ (CTy.all_true _) s s' h
  have hrefl : ∀ r : Res St, Both (fun s s' : St => s' = s) r r := fun r => by cases r <;> exact rfl
  have key := edit_hashT (fl := fl) (E := fun s s' : St => s' = s) hkE hkN (fun b s s' h => by rw [h]) haN
    (rec := hashNamed fl env (max f f')) (rec' := hashNamed fl env (max f f')) (fun n s s' h => by rw [h]; exact hrefl _) (hself _)
    (fun x y s s' hxy h => by rw [h]; exact ⟨rfl, fun he => hxy (Hash.hashCombine_inj_val he)⟩) he (BASE_HASH, []) (BASE_HASH, []) rfl
  rw [hs, hs'] at key
  exact fun h => key.2 h.symm

example {h h' : HashT} (h1 : typeHash .dynamic (demoEnv 3) 5 (.wrap .vector (.pair (.named 0) (.array 3 .string))) = .ok h)
    (h2 : typeHash .dynamic (demoEnv 3) 5 (.wrap .vector (.pair (.named 0) (.array 4 .string))) = .ok h') : h ≠ h' :=
  C57_type_change (.wrap (.pairSnd (.arraySize (by decide)))) h1 h2

/-- C57: a changed member of a struct anywhere below the root type — also behind pointers and in recursive types — changes the hash,
whatever happens to the names at the same time. -/
theorem C57_member_change {fl : Flavor} {env : Env} {K : Nat} {pointee : HashT → Option CTy} (hN : Names env K pointee) {t : CTy}
    (ht : t.Fits env K pointee) {c : Nat} (hc : c < K) (i : Fin (env.arity c)) {u : CTy} (he : Edit fl (env.field c i) u)
    (hu : Uses env t (env.base c)) {f f' : Nat} {h h' : HashT} (h1 : typeHash fl env f t = .ok h)
    (h2 : typeHash fl (env.edit c i.1 u) f' t = .ok h') : h ≠ h' := by
  obtain ⟨s, hs, rfl⟩ := typeHash_fuel h1 (Nat.le_max_left f f')
  obtain ⟨s', hs', rfl⟩ := typeHash_fuel h2 (Nat.le_max_right f f')
  have hin := used_in_done hN ht hu hs
  have key := keeps_hashT (fl := fl) (keeps_apart (env.base c)) (Q := (· ≠ env.base c)) (fun b hb s s' h _ => add_apart hb h) (P := (· < K))
    (apart_named hN hc i he (max f f')) t (fits_all ⟨c, hc, rfl⟩ ht) (BASE_HASH, []) (BASE_HASH, []) (.inl ⟨rfl, by simp⟩)
  rw [hs, hs'] at key
  rcases key with ⟨_, hb⟩ | hne
  · exact absurd hin hb
  · exact fun h => hne.2.1 h.symm

/-- The `edge` of the example gets four floats: noticed in `node`. -/
example {h h' : HashT} (h1 : typeHash .dynamic (demoEnv 3) 5 (.named 0) = .ok h)
    (h2 : typeHash .dynamic ((demoEnv 3).edit 1 1 (.array 4 (.scalar nFloat))) 5 (.named 0) = .ok h') : h ≠ h' :=
  C57_member_change (demo_names 3) (t := .named 0) (by decide : 0 < 2) (c := 1) (by decide) ⟨1, by decide⟩
    (Edit.arraySize (t := .scalar nFloat) (n := 3) (m := 4) (by decide))
    (Uses.member (env := demoEnv 3) (n := 0) ⟨2, by decide⟩ (Uses.wrap (Uses.struct (env := demoEnv 3) (n := 1)))) h1 h2

/-- C57: another size of an integer type that is used anywhere below the root type changes the hash. -/
theorem C57_integer_resize {fl : Flavor} {env : Env} {K : Nat} {pointee : HashT → Option CTy} (hN : Names env K pointee) {t : CTy}
    (ht : t.Fits env K pointee) {c : HashT} {k₀ k : Nat} (hk : k₀ % 2 ^ 64 ≠ k % 2 ^ 64) (hbase : ∀ n, n < K → env.base n ≠ c)
    (honly : ∀ n, n < K → ∀ i, (env.field n i).OnlyInt c k₀) (hot : t.OnlyInt c k₀) (hu : Uses env t c) {f f' : Nat} {h h' : HashT}
    (h1 : typeHash fl env f t = .ok h) (h2 : typeHash fl (env.resize c k) f' (t.resize c k) = .ok h') : h ≠ h' := by
  obtain ⟨s, hs, rfl⟩ := typeHash_fuel h1 (Nat.le_max_left f f')
  obtain ⟨s', hs', rfl⟩ := typeHash_fuel h2 (Nat.le_max_right f f')
  have hin := used_in_done hN ht hu hs
  have hfit : ∀ t : CTy, t.Fits env K pointee → t.AllI (fun _ => True) (fun _ => True) (fun _ _ => True) (· < K) := by
    intro t h
    induction t with
    | voidPtr b => trivial
    | ptr b t ih => exact ⟨trivial, ih h.2.2⟩
    | int b n => trivial
    | scalar b => trivial
    | named n => exact h
    | array n t ih => exact ih h
    | pair a b iha ihb => exact ⟨iha h.1, ihb h.2⟩
    | wrap w t ih => exact ih h
    | multi w n t ih => exact fun i => ih i (h i)
    | string => trivial
    | indexed t ih => exact ih h
    | strong g t ih => exact ih h
    | fws a b k iha ihb => exact ⟨iha h.1, ihb h.2⟩
    | duration nm p r ihp ihr => exact ⟨ihp h.1, ihr h.2⟩
    | timepoint nm c d ihc ihd => exact ⟨ihc h.1, ihd h.2⟩
  have key := resize_hashT (fl := fl) hk (P := (· < K))
    (resize_named (fl := fl) hk hbase (fun n hn i => CTy.AllI.structs (honly n hn i) (hfit _ (hN.fits n hn i))) (max f f')) t
    (CTy.AllI.structs hot (hfit t ht)) (BASE_HASH, []) (BASE_HASH, []) (.inl ⟨rfl, by simp⟩)
  rw [hs, hs'] at key
  rcases key with ⟨_, hb⟩ | hne
  · exact absurd hin hb
  · exact fun h => hne.2.1 h.symm

example {h h' : HashT} (h1 : typeHash .dynamic (demoEnv 3) 5 (.named 1) = .ok h)
    (h2 : typeHash .dynamic ((demoEnv 3).resize nInt 8) 5 (.named 1) = .ok h') : h ≠ h' :=
  C57_integer_resize (demo_names 3) (t := .named 1) (by decide : 1 < 2) (c := nInt) (k₀ := 4) (k := 8) (by decide)
    (demo_base_ne 3 nInt (by decide))
    (fun n hn i => by
      rcases (by omega : n = 0 ∨ n = 1) with rfl | rfl
      · match i with
        | ⟨0, _⟩ => exact fun _ => rfl
        | ⟨1, _⟩ => exact ⟨(by decide : nPtr ≠ nInt), trivial⟩
        | ⟨2, _⟩ => exact trivial
      · match i with
        | ⟨0, _⟩ => exact ⟨(by decide : nPtr ≠ nInt), trivial⟩
        | ⟨1, _⟩ => exact (by decide : nFloat ≠ nInt))
    trivial
    (Uses.member (env := demoEnv 3) (n := 1) ⟨0, by decide⟩ (Uses.ptr (Uses.member (env := demoEnv 3) (n := 0) ⟨0, by decide⟩ Uses.int))) h1 h2

/-! ## Where it fails -/

/-- One struct with the given members. -/
def oneStruct (l : List CTy) : Env where
  base := fun _ => 7#64
  arity := fun _ => l.length
  field := fun _ i => l[i]

abbrev i64 : CTy := .int 11#64 8
abbrev i8 : CTy := .int 12#64 1

/-- A type that does not mention structs. -/
def NoStruct : CTy → Prop
  | .named _ => False
  | .ptr _ t | .array _ t | .wrap _ t | .indexed t | .strong _ t => NoStruct t
  | .pair a b | .fws a b _ | .duration _ a b | .timepoint _ a b => NoStruct a ∧ NoStruct b
  | .multi _ _ t => ∀ i, NoStruct (t i)
  | _ => True

theorem hashT_noStruct (fl : Flavor) (r r' : Nat → St → Res St) (t : CTy) (h : NoStruct t) : hashT fl r t = hashT fl r' t := by
  induction t with
  | named n => exact h.elim
  | voidPtr | int | scalar | string => funext s; simp only [hashT]
  | ptr _ _ ih | wrap _ _ ih | indexed _ ih | array _ _ ih | strong _ _ ih => funext s; simp only [hashT, ih h]
  | pair a b iha ihb => funext s; simp only [hashT, iha h.1, ihb h.2]
  | fws a b _ iha ihb => funext s; simp only [hashT, iha h.1, ihb h.2]
  | duration _ a b iha ihb => funext s; simp only [hashT, iha h.1, ihb h.2]
  | timepoint _ a b iha ihb => funext s; simp only [hashT, iha h.1, ihb h.2]
  | multi w n t ih => funext s; simp only [hashT, fun i => ih i (h i)]

theorem overFin_list (f : CTy → St → Res St) (l : List CTy) : ∀ (k i : Nat) (s : St), i + k = l.length →
    overFin (fun (j : Fin l.length) s => f l[j] s) k i s = (l.drop i).foldlM (fun s t => f t s) s
  | 0, i, s, h => by rw [List.drop_of_length_le (by omega)]; rfl
  | k + 1, i, s, h => by
    rw [List.drop_eq_getElem_cons (by omega), List.foldlM_cons]
    simp only [overFin, show i < l.length by omega, dif_pos]
    congr 1
    funext s'
    exact overFin_list f l k (i + 1) s' (by omega)

theorem hashT_multi (fl : Flavor) (r : Nat → St → Res St) (w : Multi) (l : List CTy) (s : St) :
    hashT fl r (.multi w l.length fun i => l[i]) s = (do
      let s ← comb w.tag s
      l.foldlM (fun s t => hashT fl r t s) s) := by
  simp only [hashT]
  congr 1
  funext s'
  rw [overFin_list (hashT fl r) l l.length 0 s' (by omega), List.drop_zero]

theorem typeHash_one (fl : Flavor) (fuel : Nat) (l : List CTy) :
    typeHash fl (oneStruct l) (fuel + 1) (.named 0) = (do
      let s ← once fl 7#64 (fun s => do
        let s ← comb (lit ['s', 't', 'r', 'u', 'c', 't']) s
        l.foldlM (fun s t => hashT fl (hashNamed fl (oneStruct l) fuel) t s) s) (BASE_HASH, [])
      .ok s.1) := by
  unfold typeHash
  simp only [hashT, hashNamed]
  congr 2
  funext s
  congr 1
  funext s'
  have := overFin_list (hashT fl (hashNamed fl (oneStruct l) fuel)) l l.length 0 s' (by omega)
  rw [List.drop_zero] at this
  exact this

/-- C57 is violated: the end of a list of alternatives is not part of the hash.  A struct with a `variant` (or `tuple`) member that is followed by other
members has the same hash as the struct where those are further alternatives (or elements), whatever the types (here: other than structs) are. -/
theorem C57_variant_end_violated (fl : Flavor) (fuel : Nat) (w : Multi) (before inside next after : List CTy)
    (hb : ∀ t ∈ before ++ inside ++ next ++ after, NoStruct t) :
    typeHash fl (oneStruct (before ++ .multi w inside.length (fun i => inside[i]) :: next ++ after)) (fuel + 1) (.named 0) =
      typeHash fl (oneStruct (before ++ .multi w (inside ++ next).length (fun i => (inside ++ next)[i]) :: after)) (fuel + 1) (.named 0) := by
  rw [typeHash_one, typeHash_one]
  congr 2
  funext s
  congr 1
  funext s'
  generalize hashNamed fl (oneStruct (before ++ .multi w inside.length (fun i => inside[i]) :: next ++ after)) fuel = r
  generalize hashNamed fl (oneStruct (before ++ .multi w (inside ++ next).length (fun i => (inside ++ next)[i]) :: after)) fuel = r'
  have hr : ∀ (l : List CTy) s, (∀ t ∈ l, NoStruct t) →
      l.foldlM (fun s t => hashT fl r t s) s = l.foldlM (fun s t => hashT fl r' t s) s := by
    intro l
    induction l with
    | nil => intro s _; rfl
    | cons t l ih =>
      intro s h
      rw [List.foldlM_cons, List.foldlM_cons, hashT_noStruct fl r r' t (h t (List.mem_cons_self ..))]
      congr 1
      funext s2
      exact ih s2 fun t ht => h t (List.mem_cons_of_mem _ ht)
  simp only [List.foldlM_append, List.foldlM_cons, hashT_multi, bind_assoc]
  rw [hr before s' (fun t ht => hb t (by simp [ht]))]
  congr 1
  funext s1
  congr 1
  funext s2
  rw [hr inside s2 (fun t ht => hb t (by simp [ht]))]
  congr 1
  funext s3
  rw [hr next s3 (fun t ht => hb t (by simp [ht]))]
  congr 1
  funext s4
  exact hr after s4 (fun t ht => hb t (by simp [ht]))

/-- `struct { variant<int64_t, int8_t> v; string s; }` and `struct { variant<int64_t, int8_t, string> v; }`. -/
example (fl : Flavor) : typeHash fl (oneStruct [.multi .variant 2 fun i => [i64, i8][i], .string]) 2 (.named 0) =
    typeHash fl (oneStruct [.multi .variant 3 fun i => [i64, i8, .string][i]]) 2 (.named 0) :=
  C57_variant_end_violated fl 1 .variant [] [i64, i8] [.string] [] (by simp [NoStruct])

/-- Two structs, the second is a member of the first. -/
def twoStructs (outer inner : List CTy) : Env where
  base := fun n => if n = 0 then 7#64 else 8#64
  arity := fun n => if n = 0 then outer.length else inner.length
  field := fun n i => if h : n = 0 then outer[i]'(by have := i.2; simpa [h] using this) else inner[i]'(by have := i.2; simpa [h] using this)

/-- `struct { struct { int64_t a; int8_t b; } x; int8_t c; }` -/
abbrev nestedA : Env := twoStructs [.named 1, i8] [i64, i8]

/-- `struct { struct { int64_t a; int8_t b; int8_t c; } x; }` -/
abbrev nestedB : Env := twoStructs [.named 1] [i64, i8, i8]

/-- Layouts of the two: 24 bytes with `c` at 16, and 16 bytes with `c` at 9. -/
abbrev layA : Ser.Ty := .agg 24 8 2 (fun i => [0, 16][i]) fun i => [.agg 16 8 2 (fun i => [0, 8][i]) fun i => [.int 8, .int 1][i], .int 1][i]
abbrev layB : Ser.Ty := .agg 16 8 1 (fun _ => 0) fun _ => .agg 16 8 3 (fun i => [0, 8, 9][i]) fun i => [.int 8, .int 1, .int 1][i]

/-- `{{1, 2}, 3}` at address 64. -/
def nestedMem : Ser.Mem := Ser.segs [(64, leBytes 8 1 ++ [2#8]), (80, [3#8])]

/-- The version word of a type. -/
def versionOf (env : Env) : HashT := match typeHash .dynamic env 3 (.named 0) with | .ok h => h | .error _ => 0#64

/-- C57 is violated: the end of a nested struct is not part of the hash.  Data written `WITH_VERSION` for one type is accepted by a reader
for the other, which finds `c = 0` instead of `c = 3`. -/
theorem C57_nested_struct_violated :
    typeHash .dynamic nestedA 3 (.named 0) = typeHash .dynamic nestedB 3 (.named 0) ∧
    typeHash (.static 128) nestedA 3 (.named 0) = typeHash (.static 128) nestedB 3 (.named 0) ∧
    (match typeHash .dynamic nestedA 3 (.named 0) with | .ok h => decide (h = versionOf nestedA) | .error _ => false) = true ∧
    (match (do
        let bytes ← Ser.serialize .little false Arith.Mode.WITH_VERSION (versionOf nestedA) 0 nestedMem layA 64
        let r ← Ser.deserialize Ser.plainCfg Arith.Mode.WITH_VERSION (versionOf nestedB) 0 layB 4096 bytes.length (Ser.segs [(4096, bytes)])
        .ok (Ser.rd r.1 r.2 10) : Res (List Byte)) with
      | .error _ => false
      | .ok b => decide (b = leBytes 8 1 ++ [2#8, 0#8])) = true := by
  refine ⟨?_, ?_, ?_, ?_⟩ <;> decide +kernel

/-- C57 is violated: integers are told apart by their size alone; `int8_t`, `bool` and `char` (or `int32_t` and `char32_t`) have the same
hash in every context. -/
theorem C57_integer_kind_violated (fl : Flavor) (env : Env) (K : Nat) (B : List HashT) (hP : Program env K B) (t : CTy)
    (ht : t.All (· ∈ B) (· ∈ B) (· < K)) (a b : HashT) (hb : b ∉ B)
    (hsc : ∀ n, n < K → ∀ i, (env.field n i).AllI (fun _ => True) (· ≠ a) (fun _ _ => True) (fun _ => True))
    (hst : t.AllI (fun _ => True) (· ≠ a) (fun _ _ => True) (fun _ => True)) (f : Nat) :
    typeHash fl (env.rename fun x => if x = a then b else x) f (t.rename fun x => if x = a then b else x) = typeHash fl env f t := by
  have hmono : ∀ t : CTy, t.AllI (fun _ => True) (· ≠ a) (fun _ _ => True) (fun _ => True) →
      t.AllI (fun _ => True) (fun x => (if x = a then b else x) = x) (fun _ _ => True) (fun _ => True) := by
    intro t h
    induction t with
    | voidPtr b => trivial
    | ptr b t ih => exact ⟨trivial, ih h.2⟩
    | int b n => trivial
    | scalar x => exact if_neg h
    | named n => exact h
    | array n t ih => exact ih h
    | pair a b iha ihb => exact ⟨iha h.1, ihb h.2⟩
    | wrap w t ih => exact ih h
    | multi w n t ih => exact fun i => ih i (h i)
    | string => trivial
    | indexed t ih => exact ih h
    | strong g t ih => exact ih h
    | fws a b k iha ihb => exact ⟨iha h.1, ihb h.2⟩
    | duration nm p r ihp ihr => exact ⟨ihp h.1, ihr h.2⟩
    | timepoint nm c d ihc ihd => exact ⟨ihc h.1, ihd h.2⟩
  refine C56_names hP (fun x hx y hy hxy => ?_) (fun n hn i => hmono _ (hsc n hn i)) ht (hmono t hst) f
  by_cases h1 : x = a <;> by_cases h2 : y = a
  · rw [h1, h2]
  · rw [if_pos h1, if_neg h2] at hxy; exact absurd (hxy ▸ hy) hb
  · rw [if_neg h1, if_pos h2] at hxy; exact absurd (hxy ▸ hx) hb
  · rwa [if_neg h1, if_neg h2] at hxy

/-- `struct { int8_t x; }` and `struct { bool x; }`. -/
example : typeHash .dynamic (oneStruct [.int 12#64 1]) 2 (.named 0) = typeHash .dynamic (oneStruct [.int 13#64 1]) 2 (.named 0) := by decide +kernel

end Cista.TypeHash

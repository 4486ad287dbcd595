import Verif.Hash.Equal

/-!
# `build_hash` and the hash of `cista::variant`

Both select `hashing<decltype(x)>` for a reference `x` (include/cista/hashing.h:213, containers/variant.h:351): the specialisations of `hashing` for values
(hashing.h:138-208) are not selected, the generic one (74-136) removes the reference.  For `std::pair`, `std::tuple`, `std::variant` and `std::chrono` it does not
compile; aggregates (`cista::pair` is one) are hashed member by member; a `char const*` is hashed as a pointer.
-/

namespace Cista.Hash.Equal

/-- hashing.h:94-136 for a reference. -/
def hashRef (M : CMem) : Val → HashT → Res HashT
  | .text (.cptr x), h => .ok (hashInt x h)
  | a, h => hashVal M a h

/-- hashing.h:210-215 `build_hash`. -/
def buildHash (M : CMem) (args : List Val) : Res HashT := args.foldlM (fun h a => hashRef M a h) BASE_HASH

/-- variant.h:347-354 `cista::variant::hash` of the alternative `i` with this value. -/
def variantHash (M : CMem) (i : Nat) (v : Val) : Res HashT := hashRef M v (hashInt i BASE_HASH)

/-- hashing.h:97-98 a `cista::variant` as a key: `hash_combine` of its own hash with the seed. -/
def variantKeyHash (M : CMem) (i : Nat) (v : Val) (seed : HashT) : Res HashT := do
  let h ← variantHash M i v
  return hashCombine h seed

/-- The members of a tuple. -/
def members : List Val → Val
  | [] => .nil
  | a :: as => .cons a (members as)

/-- Not a `char const*`. -/
def NotCStr : Val → Prop
  | .text (.cptr _) => False
  | _ => True

theorem hashRef_eq (M : CMem) {a : Val} (h : NotCStr a) (s : HashT) : hashRef M a s = hashVal M a s := by
  unfold hashRef
  split
  · cases h
  · rfl

theorem foldlM_members (M : CMem) : ∀ (args : List Val) (s : HashT), (∀ a ∈ args, NotCStr a) →
    args.foldlM (fun h a => hashRef M a h) s = hashVal M (members args) s
  | [], s, _ => rfl
  | a :: as, s, h => by
    rw [List.foldlM_cons, hashRef_eq M (h a (List.mem_cons_self ..))]
    show _ = (do let h ← hashVal M a s; hashVal M (members as) h)
    cases hashVal M a s with
    | error e => rfl
    | ok r => exact foldlM_members M as r fun b hb => h b (List.mem_cons_of_mem _ hb)

/-- **C127** `build_hash(a, b, …)` is the hash of the tuple `(a, b, …)`, if no argument is a `char const*`. -/
theorem C127_tuple_partial (M : CMem) (args : List Val) (h : ∀ a ∈ args, NotCStr a) : buildHash M args = hashVal M (.tup (members args)) BASE_HASH :=
  foldlM_members M args BASE_HASH h

example : buildHash (fun _ => []) [.int ⟨true, 32⟩ 7, .text (.sized [97#8])] =
    hashVal (fun _ => []) (.tup (.cons (.int ⟨true, 32⟩ 7) (.cons (.text (.sized [97#8])) .nil))) BASE_HASH := by
  apply C127_tuple_partial
  intro a ha
  rcases List.mem_cons.1 ha with rfl | ha
  · trivial
  · rw [List.mem_singleton.1 ha]
    trivial

/-- Lists of the same length whose elements are related one by one. -/
inductive OneByOne (P : Val → Val → Prop) : List Val → List Val → Prop
  | nil : OneByOne P [] []
  | cons {a b : Val} {as bs : List Val} : P a b → OneByOne P as bs → OneByOne P (a :: as) (b :: bs)

theorem members_rel (P : Val → Val → Prop) (Q : Val → Val → Prop) (h0 : Q .nil .nil) (h1 : ∀ a b as bs, P a b → Q as bs → Q (.cons a as) (.cons b bs)) :
    ∀ {as bs : List Val}, OneByOne P as bs → Q (members as) (members bs)
  | _, _, .nil => h0
  | _, _, .cons h hs => h1 _ _ _ _ h (members_rel P Q h0 h1 hs)

/-- **C127** Arguments that compare equal one by one give equal results, and there is a result: also if they have different types (with the side conditions of
C74), if none is a `char const*`. -/
theorem C127_equal_partial (M : CMem) (as bs : List Val) (ha : ∀ a ∈ as, NotCStr a) (hb : ∀ b ∈ bs, NotCStr b)
    (h : OneByOne (fun a b => Agree a b ∧ Hashable a ∧ Hashable b ∧ equalTo M a b = .ok true) as bs) :
    ∃ r, buildHash M as = .ok r ∧ buildHash M bs = .ok r := by
  rw [C127_tuple_partial M as ha, C127_tuple_partial M bs hb]
  have : Agree (members as) (members bs) ∧ Hashable (members as) ∧ Hashable (members bs) ∧ equalTo M (members as) (members bs) = .ok true := by
    refine members_rel _ (fun a b => Agree a b ∧ Hashable a ∧ Hashable b ∧ equalTo M a b = .ok true) ⟨trivial, trivial, trivial, rfl⟩ ?_ h
    intro a b as bs h1 h2
    refine ⟨⟨h1.1, h2.1⟩, ⟨h1.2.1, h2.2.1⟩, ⟨h1.2.2.1, h2.2.2.1⟩, ?_⟩
    show (do let x ← equalTo M a b; if x then equalTo M as bs else .ok false) = _
    rw [h1.2.2.2, ok_bind, if_pos rfl, h2.2.2.2]
  exact C74_equal_keys_hash_alike M (.tup (members as)) (.tup (members bs)) this.1 this.2.1 this.2.2.1 this.2.2.2 BASE_HASH

/-- An `int` and a `short`. -/
example : ∃ r, buildHash (fun _ => []) [.int ⟨true, 32⟩ 7, .text (.sized [97#8])] = .ok r ∧
    buildHash (fun _ => []) [.int ⟨true, 16⟩ 7, .text (.array [97#8, 0#8])] = .ok r := by
  apply C127_equal_partial
  · intro a ha
    rcases List.mem_cons.1 ha with rfl | ha
    · trivial
    · rw [List.mem_singleton.1 ha]; trivial
  · intro a ha
    rcases List.mem_cons.1 ha with rfl | ha
    · trivial
    · rw [List.mem_singleton.1 ha]; trivial
  · refine .cons ⟨⟨by decide, by decide, by decide, by decide, by decide⟩, trivial, trivial, by decide +kernel⟩ (.cons ⟨⟨[97#8], rfl, by decide⟩, trivial, trivial, ?_⟩ .nil)
    exact congrArg Except.ok (by decide +kernel : ([97#8] == upToNul [97#8, 0#8]) = true)

/-- **C127** The order and every number count: two argument lists that differ in one integer, of any type of up to 64 bits, have different results. -/
theorem C127_separates (M : CMem) (pre post : List Val) (t : ITy) (v w : Int) (ht : 1 ≤ t.w) (hw : t.w ≤ 64) (hv : t.Holds v) (hw' : t.Holds w) (hne : v ≠ w)
    {r : HashT} (hr : buildHash M (pre ++ .int t v :: post) = .ok r) (hi : ∀ a ∈ post, ∃ u x, a = .int u x) :
    ∃ r', buildHash M (pre ++ .int t w :: post) = .ok r' ∧ r' ≠ r := by
  have tail : ∀ (post : List Val), (∀ a ∈ post, ∃ u x, a = Val.int u x) → ∀ h h' : HashT, h ≠ h' →
      ∃ r r', post.foldlM (fun h a => hashRef M a h) h = .ok r ∧ post.foldlM (fun h a => hashRef M a h) h' = .ok r' ∧ r ≠ r' := by
    intro post
    induction post with
    | nil => exact fun _ h h' hne => ⟨h, h', rfl, rfl, hne⟩
    | cons a as ih =>
      intro hi h h' hne
      obtain ⟨u, x, rfl⟩ := hi a (List.mem_cons_self ..)
      obtain ⟨r, r', e, e', g⟩ := ih (fun b hb => hi b (List.mem_cons_of_mem _ hb)) (hashInt x h) (hashInt x h') (fun e => hne (hashCombine_inj_state e))
      exact ⟨r, r', e, e', g⟩
  unfold buildHash at hr ⊢
  rw [List.foldlM_append] at hr ⊢
  cases hp : pre.foldlM (fun h a => hashRef M a h) BASE_HASH with
  | error e => rw [hp] at hr; cases hr
  | ok h =>
    rw [hp] at hr
    have hr : post.foldlM (fun h a => hashRef M a h) (hashInt v h) = .ok r := hr
    have hd : hashInt w h ≠ hashInt v h := by
      intro e
      have e : BitVec.ofInt 64 w = BitVec.ofInt 64 v := hashCombine_inj_val e
      have e := congrArg BitVec.toInt e
      rw [BitVec.toInt_ofInt, BitVec.toInt_ofInt, Int.bmod_def, Int.bmod_def] at e
      have h1 := pow_mono hw
      have h2 := pow_mono (show t.w - 1 ≤ 63 by omega)
      unfold ITy.Holds at hv hw'
      obtain ⟨s, n⟩ := t
      cases s <;> simp only [if_true, Bool.false_eq_true, if_false] at * <;> omega
    obtain ⟨r1, r2, e1, e2, g⟩ := tail post hi _ _ hd
    rw [hr] at e2
    cases e2
    exact ⟨r1, e1, g⟩

example : ∃ r', buildHash (fun _ => []) [.int ⟨true, 8⟩ 3, .int ⟨false, 64⟩ 5] = .ok r' ∧ r' ≠ hashInt 5 (hashInt 4 BASE_HASH) := by
  exact C127_separates (fun _ => []) [] [.int ⟨false, 64⟩ 5] ⟨true, 8⟩ 4 3 (by decide) (by decide) (by decide) (by decide) (by decide)
    (r := hashInt 5 (hashInt 4 BASE_HASH)) rfl (fun a ha => ⟨_, _, List.mem_singleton.1 ha⟩)

/-- **C127** `cista::variant`s with the same alternative and equal values (of any hashable type) have the same hash, with every seed; a `char const*` alternative is
compared and hashed by its address. -/
theorem C127_variant (M : CMem) (i : Nat) (a b : Val) (ha : Agree a b) (h1 : Hashable a) (h2 : Hashable b) (hs : NotCStr a ↔ NotCStr b)
    (he : equalTo M a b = .ok true) (seed : HashT) : ∃ h, variantKeyHash M i a seed = .ok h ∧ variantKeyHash M i b seed = .ok h := by
  have key : ∃ h, variantHash M i a = .ok h ∧ variantHash M i b = .ok h := by
    unfold variantHash
    by_cases hc : NotCStr a
    · rw [hashRef_eq M hc, hashRef_eq M (hs.1 hc)]
      exact C74_equal_keys_hash_alike M a b ha h1 h2 he _
    · have hb : ¬ NotCStr b := fun h => hc (hs.2 h)
      match a, b, hc, hb, he with
      | .text (.cptr x), .text (.cptr y), _, _, he =>
        have e : x = y := by
          have := Except.ok.inj he
          exact beq_iff_eq.1 this
        subst e
        exact ⟨_, rfl, rfl⟩
      | .text (.cptr _), .text (.sized _), _, hb, _ => exact absurd trivial hb
      | .text (.cptr _), .text (.array _), _, hb, _ => exact absurd trivial hb
      | .text (.sized _), _, hc, _, _ => exact absurd trivial hc
      | .text (.array _), _, hc, _, _ => exact absurd trivial hc
      | .int _ _, _, hc, _, _ => exact absurd trivial hc
      | .flt _ _, _, hc, _, _ => exact absurd trivial hc
      | .ptr _, _, hc, _, _ => exact absurd trivial hc
      | .list _, _, hc, _, _ => exact absurd trivial hc
      | .tup _, _, hc, _, _ => exact absurd trivial hc
      | .pair _ _, _, hc, _, _ => exact absurd trivial hc
      | .variant _ _, _, hc, _, _ => exact absurd trivial hc
      | .none, _, hc, _, _ => exact absurd trivial hc
      | .some _, _, hc, _, _ => exact absurd trivial hc
      | .nil, _, hc, _, _ => exact absurd trivial hc
      | .cons _ _, _, hc, _, _ => exact absurd trivial hc
  obtain ⟨h, e1, e2⟩ := key
  refine ⟨hashCombine h seed, ?_, ?_⟩
  · unfold variantKeyHash; rw [e1, ok_bind, pure_ok]
  · unfold variantKeyHash; rw [e2, ok_bind, pure_ok]

example : ∃ h, variantKeyHash (fun _ => []) 1 (.int ⟨true, 32⟩ 7) 5 = .ok h ∧ variantKeyHash (fun _ => []) 1 (.int ⟨true, 32⟩ 7) 5 = .ok h :=
  C127_variant _ 1 (.int ⟨true, 32⟩ 7) (.int ⟨true, 32⟩ 7) ⟨by decide, by decide, by decide, by decide, by decide⟩ trivial trivial Iff.rfl (by decide +kernel) 5

/-- **C127** The same integer as two alternatives: different hashes, with every seed (fewer than 2^64 alternatives). -/
theorem C127_variant_index (M : CMem) (i j : Nat) (hi : i < 2 ^ 64) (hj : j < 2 ^ 64) (hij : i ≠ j) (t u : ITy) (v : Int) (seed : HashT) :
    variantKeyHash M i (.int t v) seed ≠ variantKeyHash M j (.int u v) seed := by
  intro e
  have e : hashCombine (hashInt v (hashInt i BASE_HASH)) seed = hashCombine (hashInt v (hashInt j BASE_HASH)) seed := Except.ok.inj e
  have e : BitVec.ofInt 64 (i : Int) = BitVec.ofInt 64 (j : Int) := hashCombine_inj_val (hashCombine_inj_state (hashCombine_inj_state e))
  have e := congrArg BitVec.toNat e
  rw [BitVec.toNat_ofInt, BitVec.toNat_ofInt] at e
  omega

example : variantKeyHash (fun _ => []) 0 (.int ⟨true, 32⟩ 7) 5 ≠ variantKeyHash (fun _ => []) 1 (.int ⟨true, 64⟩ 7) 5 :=
  C127_variant_index _ 0 1 (by decide) (by decide) (by decide) _ _ 7 5

/-- **C127 (violated)** `build_hash` of a `char const*` depends on the address: the same text at two addresses has two hashes, although `hashing<char const*>` gives one. -/
theorem C127_c_string_violated (M : CMem) (x y : Nat) (hx : x < 2 ^ 64) (hy : y < 2 ^ 64) (hne : x ≠ y) (hm : M x = M y) (seed : HashT) :
    hashVal M (.text (.cptr x)) seed = hashVal M (.text (.cptr y)) seed ∧ buildHash M [.text (.cptr x)] ≠ buildHash M [.text (.cptr y)] := by
  refine ⟨(C74_c_strings_compare_addresses M x y hm seed).1, fun e => ?_⟩
  have e : hashInt x BASE_HASH = hashInt y BASE_HASH := Except.ok.inj e
  have e : BitVec.ofInt 64 (x : Int) = BitVec.ofInt 64 (y : Int) := hashCombine_inj_val e
  have e := congrArg BitVec.toNat e
  rw [BitVec.toNat_ofInt, BitVec.toNat_ofInt] at e
  omega

example : buildHash (fun _ => [97#8]) [.text (.cptr 1000)] ≠ buildHash (fun _ => [97#8]) [.text (.cptr 2000)] :=
  (C127_c_string_violated (fun _ => [97#8]) 1000 2000 (by decide) (by decide) (by decide) rfl 0).2

end Cista.Hash.Equal

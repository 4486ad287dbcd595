import Verif.TypeHash.Lemmas

/-!
# Changed programs: other names, other members
-/
set_option linter.unusedVariables false
set_option linter.unusedSimpArgs false

namespace Cista.TypeHash

open Cista.Hash (HashT BASE_HASH hashCombine fnv)

attribute [local irreducible] lit num Wrap.tag Multi.tag hashCombine

variable {fl : Flavor} {env : Env}

theorem flavor_same (fl : Flavor) : (fl = .dynamic ∧ fl = .dynamic) ∨ ∃ m m', fl = .static m ∧ fl = .static m' := by
  cases fl with
  | dynamic => exact .inl ⟨rfl, rfl⟩
  | static m => exact .inr ⟨m, m, rfl, rfl⟩

/-- The program with other names. -/
def Env.rename (env : Env) (ρ : HashT → HashT) : Env where
  base := fun n => ρ (env.base n)
  arity := env.arity
  field := fun n i => (env.field n i).rename ρ

/-- Same hash, same types up to names. -/
def Renamed (S : HashT → Prop) (ρ : HashT → HashT) (s s' : St) : Prop := s'.1 = s.1 ∧ s'.2 = s.2.map ρ ∧ ∀ b ∈ s.2, S b

theorem findIdx?_map {ρ : HashT → HashT} {S : HashT → Prop} (hρ : ∀ a b, S a → S b → ρ a = ρ b → a = b) {b : HashT} (hb : S b) :
    ∀ l : List HashT, (∀ x ∈ l, S x) → (l.map ρ).findIdx? (· == ρ b) = l.findIdx? (· == b)
  | [], _ => rfl
  | x :: l, hl => by
    have hxb : (ρ x == ρ b) = (x == b) := by
      by_cases h : x = b
      · simp [h]
      · have : ρ x ≠ ρ b := fun h' => h (hρ x b (hl x (by simp)) hb h')
        rw [beq_eq_false_iff_ne.2 h, beq_eq_false_iff_ne.2 this]
    rw [List.map_cons, List.findIdx?_cons, List.findIdx?_cons, hxb, findIdx?_map hρ hb l fun y hy => hl y (List.mem_cons_of_mem _ hy)]

theorem renamed_once {S : HashT → Prop} {ρ : HashT → HashT} (hρ : ∀ a b, S a → S b → ρ a = ρ b → a = b) {b : HashT} (hb : S b)
    {k k' : St → Res St} (hk : ∀ s s', Renamed S ρ s s' → Both (Renamed S ρ) (k s) (k' s')) {s s' : St} (h : Renamed S ρ s s') :
    Both (Renamed S ρ) (once fl b k s) (once fl (ρ b) k' s') := by
  have hi : s'.2.findIdx? (· == ρ b) = s.2.findIdx? (· == b) := by rw [h.2.1]; exact findIdx?_map hρ hb _ h.2.2
  have hadd : Renamed S ρ (s.1, s.2 ++ [b]) (s'.1, s'.2 ++ [ρ b]) := by
    refine ⟨h.1, by simp [h.2.1], fun x hx => ?_⟩
    rcases List.mem_append.1 hx with hx | hx
    · exact h.2.2 x hx
    · simp at hx; subst hx; exact hb
  have hlen : s'.2.length = s.2.length := by rw [h.2.1]; simp
  unfold once
  rw [hi]
  cases s.2.findIdx? (· == b) with
  | some i => exact ⟨by show hashCombine s'.1 _ = hashCombine s.1 _; rw [h.1], h.2.1, h.2.2⟩
  | none =>
    cases fl with
    | dynamic => exact hk _ _ hadd
    | static m =>
      dsimp only
      rw [hlen]
      split
      · exact hk _ _ hadd
      · exact rfl

theorem renamed_hashT {S : HashT → Prop} {ρ : HashT → HashT} (hρ : ∀ a b, S a → S b → ρ a = ρ b → a = b) {rec rec' : Nat → St → Res St}
    {P : Nat → Prop} (hr : ∀ n, P n → ∀ s s', Renamed S ρ s s' → Both (Renamed S ρ) (rec n s) (rec' n s')) (t : CTy)
    (ht : t.All S (fun b => S b ∧ ρ b = b) P) (s s' : St) (h : Renamed S ρ s s') :
    Both (Renamed S ρ) (hashT fl rec t s) (hashT fl rec' (t.rename ρ) s') := by
  have hcomb : ∀ x s s', Renamed S ρ s s' → Renamed S ρ (hashCombine s.1 x, s.2) (hashCombine s'.1 x, s'.2) := fun x s s' h =>
    ⟨by show hashCombine s'.1 _ = hashCombine s.1 _; rw [h.1], h.2.1, h.2.2⟩
  refine both_hashT (flavor_same fl) hcomb (fun b hb k k' hk s s' h => renamed_once hρ hb hk h) (fun b hb k k' hk s s' h => ?_)
    (fun b n hb s s' h => ?_) hr t ht s s' h
  case refine_2 =>
    simp only [hashT]
    exact renamed_once hρ hb (fun s s' h => (both_comb (hcomb _ s s' h)).bind fun s s' h => both_comb (hcomb _ s s' h)) h
  have := renamed_once (fl := fl) hρ hb.1 hk h
  rwa [hb.2] at this

theorem renamed_named {S : HashT → Prop} {ρ : HashT → HashT} {K : Nat} (hρ : ∀ a b, S a → S b → ρ a = ρ b → a = b)
    (hbase : ∀ n, n < K → S (env.base n)) (hfield : ∀ n, n < K → ∀ i, (env.field n i).All S (fun b => S b ∧ ρ b = b) (· < K)) :
    ∀ f n, n < K → ∀ s s', Renamed S ρ s s' → Both (Renamed S ρ) (hashNamed fl env f n s) (hashNamed fl (env.rename ρ) f n s')
  | 0, n, hn, s, s', h => rfl
  | f + 1, n, hn, s, s', h => by
    unfold hashNamed
    refine renamed_once hρ (hbase n hn) (fun s s' h => ?_) h
    refine Both.bind (R := Renamed S ρ) (R' := Renamed S ρ) ⟨by show hashCombine s'.1 _ = hashCombine s.1 _; rw [h.1], h.2.1, h.2.2⟩ ?_
    intro s s' h
    exact Both.overFin (fun i s s' h => renamed_hashT hρ (renamed_named hρ hbase hfield f) _ (hfield n hn i) s s' h) _ _ s s' h

/-! ## One member edited -/

/-- Type `u` differs from type `t` in one place: the length of an array, the kind of a wrapper, variant or tuple, the bucket size of a
multimap, or (for `type_hash` only) the tag of a strong type or the name of a duration or time point. -/
inductive Edit : Flavor → CTy → CTy → Prop
  | arraySize {fl t n m} : n % 2 ^ 64 ≠ m % 2 ^ 64 → Edit fl (.array n t) (.array m t)
  | wrapKind {fl t v w} : v ≠ w → Edit fl (.wrap v t) (.wrap w t)
  | multiKind {fl n t v w} : v ≠ w → Edit fl (.multi v n t) (.multi w n t)
  | fwsLog {fl a b n m} : n % 2 ^ 64 ≠ m % 2 ^ 64 → Edit fl (.fws a b n) (.fws a b m)
  | strongTag {t g g'} : g ≠ g' → Edit .dynamic (.strong g t) (.strong g' t)
  | durationName {p p' r g g'} : g ≠ g' → Edit .dynamic (.duration g p r) (.duration g' p' r)
  | timepointName {c c' d g g'} : g ≠ g' → Edit .dynamic (.timepoint g c d) (.timepoint g' c' d)
  | array {fl t u n} : Edit fl t u → Edit fl (.array n t) (.array n u)
  | pairFst {fl t u b} : Edit fl t u → Edit fl (.pair t b) (.pair u b)
  | pairSnd {fl t u a} : Edit fl t u → Edit fl (.pair a t) (.pair a u)
  | wrap {fl t u w} : Edit fl t u → Edit fl (.wrap w t) (.wrap w u)
  | multi {fl n t u w} (i : Fin n) : Edit fl (t i) (u i) → (∀ j, j ≠ i → t j = u j) → Edit fl (.multi w n t) (.multi w n u)
  | indexed {fl t u} : Edit fl t u → Edit fl (.indexed t) (.indexed u)
  | strong {fl t u g} : Edit fl t u → Edit fl (.strong g t) (.strong g u)
  | fwsSizes {fl t u b n} : Edit fl t u → Edit fl (.fws t b n) (.fws u b n)
  | fwsValues {fl t u a n} : Edit fl t u → Edit fl (.fws a t n) (.fws a u n)
  | durationRep {fl t u g p} : Edit fl t u → Edit fl (.duration g p t) (.duration g p u)
  | timepointDur {fl t u g c} : Edit fl t u → Edit fl (.timepoint g c t) (.timepoint g c u)

/-- Member `i` of struct `c` has type `u` now. -/
def Env.edit (env : Env) (c i : Nat) (u : CTy) : Env where
  base := env.base
  arity := env.arity
  field := fun n j => if n = c ∧ j.1 = i then u else env.field n j

/-- Equal states after `b` has been seen. -/
def Eq1 (b : HashT) (s s' : St) : Prop := s' = s ∧ b ∈ s.2

/-- Different hashes after `b` has been seen. -/
def Ne1 (b : HashT) (s s' : St) : Prop := s'.2 = s.2 ∧ s'.1 ≠ s.1 ∧ b ∈ s.2

/-- Different hashes as soon as `b` has been seen. -/
def Apart (b : HashT) (s s' : St) : Prop := (s' = s ∧ b ∉ s.2) ∨ Ne1 b s s'

/-- Relations of states with the same types that are kept by all steps. -/
structure Keeps (R : St → St → Prop) : Prop where
  same : ∀ s s', R s s' → s'.2 = s.2
  comb : ∀ x s s', R s s' → R (hashCombine s.1 x, s.2) (hashCombine s'.1 x, s'.2)

theorem Keeps.once {R : St → St → Prop} (hR : Keeps R) {b : HashT}
    (hadd : ∀ s s', R s s' → b ∉ s.2 → R (s.1, s.2 ++ [b]) (s'.1, s'.2 ++ [b])) {k k' : St → Res St}
    (hk : ∀ s s', R s s' → Both R (k s) (k' s')) {s s' : St} (h : R s s') : Both R (once fl b k s) (once fl b k' s') := by
  have hs := hR.same s s' h
  unfold TypeHash.once
  rw [hs]
  cases hi : s.2.findIdx? (· == b) with
  | some i =>
    have := hR.comb (num i) s s' h
    exact this
  | none =>
    have ha := hadd s s' h (findIdx?_none.1 hi)
    rw [hs] at ha
    cases fl with
    | dynamic => exact hk _ _ ha
    | static m =>
      dsimp only
      split
      · exact hk _ _ ha
      · exact rfl

theorem keeps_eq1 (b : HashT) : Keeps (Eq1 b) := ⟨fun s s' h => by rw [h.1], fun x s s' h => by rw [h.1]; exact ⟨rfl, h.2⟩⟩

theorem hashCombine_ne {h h' : HashT} (x : HashT) (hne : h' ≠ h) : hashCombine h' x ≠ hashCombine h x :=
  fun he => hne (Hash.hashCombine_inj_state he)

theorem keeps_ne1 (b : HashT) : Keeps (Ne1 b) := ⟨fun s s' h => h.1, fun x s s' h => ⟨h.1, hashCombine_ne x h.2.1, h.2.2⟩⟩

theorem keeps_apart (b : HashT) : Keeps (Apart b) := by
  refine ⟨fun s s' h => ?_, fun x s s' h => ?_⟩
  · rcases h with h | h
    · rw [h.1]
    · exact h.1
  · rcases h with h | h
    · exact .inl ⟨by rw [h.1], h.2⟩
    · exact .inr ((keeps_ne1 b).comb x s s' h)

theorem add_eq1 {c b : HashT} {s s' : St} (h : Eq1 c s s') : Eq1 c (s.1, s.2 ++ [b]) (s'.1, s'.2 ++ [b]) := by
  rw [h.1]; exact ⟨rfl, List.mem_append_left _ h.2⟩

theorem add_ne1 {c b : HashT} {s s' : St} (h : Ne1 c s s') : Ne1 c (s.1, s.2 ++ [b]) (s'.1, s'.2 ++ [b]) :=
  ⟨by show s'.2 ++ _ = s.2 ++ _; rw [h.1], h.2.1, List.mem_append_left _ h.2.2⟩

theorem add_apart {c b : HashT} (hcb : b ≠ c) {s s' : St} (h : Apart c s s') : Apart c (s.1, s.2 ++ [b]) (s'.1, s'.2 ++ [b]) := by
  rcases h with h | h
  · refine .inl ⟨by rw [h.1], fun hm => ?_⟩
    rcases List.mem_append.1 hm with hm | hm
    · exact h.2 hm
    · simp at hm; exact hcb hm.symm
  · exact .inr (add_ne1 h)

/-- The same type, with structs treated alike. -/
theorem keeps_hashT {R : St → St → Prop} (hR : Keeps R) {Q : HashT → Prop} {P : Nat → Prop}
    (hadd : ∀ b, Q b → ∀ s s', R s s' → b ∉ s.2 → R (s.1, s.2 ++ [b]) (s'.1, s'.2 ++ [b])) {rec rec' : Nat → St → Res St}
    (hr : ∀ n, P n → ∀ s s', R s s' → Both R (rec n s) (rec' n s')) (t : CTy) (ht : t.All Q Q P) (s s' : St) (h : R s s') :
    Both R (hashT fl rec t s) (hashT fl rec' t s') := by
  have := both_hashT (R := R) (ρ := fun b => b) (flavor_same fl) hR.comb (fun b hb k k' hk s s' h => hR.once (hadd b hb) hk h)
    (fun b hb k k' hk s s' h => hR.once (hadd b hb) hk h) (σ := fun _ n => n) (fun b n hb s s' h => by
      simp only [hashT]
      exact hR.once (hadd b hb) (fun s s' h => (both_comb (hR.comb _ s s' h)).bind fun s s' h => both_comb (hR.comb _ s s' h)) h) hr t ht s s' h
  rwa [CTy.map_id] at this

theorem CTy.all_true : ∀ t : CTy, t.All (fun _ => True) (fun _ => True) (fun _ => True) := by
  intro t
  unfold CTy.All
  induction t with
  | multi w n t ih => exact ih
  | _ => simp_all [CTy.AllI]

/-- After the edited struct has been seen, the programs act alike. -/
theorem keeps_named {R : St → St → Prop} (hR : Keeps R) {c i : Nat} {u : CTy} (hd : ∀ s s', R s s' → env.base c ∈ s.2)
    (hadd : ∀ b s s', R s s' → R (s.1, s.2 ++ [b]) (s'.1, s'.2 ++ [b])) :
    ∀ f n s s', R s s' → Both R (hashNamed fl env f n s) (hashNamed fl (env.edit c i u) f n s')
  | 0, n, s, s', h => rfl
  | f + 1, n, s, s', h => by
    unfold hashNamed
    by_cases hn : n = c
    · subst hn
      have hm := hd s s' h
      have hm' : env.base n ∈ s'.2 := by rw [hR.same s s' h]; exact hm
      unfold once
      show Both R _ (match s'.2.findIdx? (· == env.base n) with | some i => _ | none => _)
      rw [hR.same s s' h]
      cases hi : s.2.findIdx? (· == env.base n) with
      | some j => exact hR.comb _ s s' h
      | none => exact absurd hm (findIdx?_none.1 hi)
    · refine hR.once (fun s s' h _ => hadd _ s s' h) (fun s s' h => ?_) h
      refine Both.bind (R := R) (R' := R) (hR.comb _ s s' h) fun s s' h => ?_
      refine Both.overFin (fun j s s' h => ?_) _ _ s s' h
      have : (env.edit c i u).field n j = env.field n j := by
        show (if n = c ∧ j.1 = i then u else env.field n j) = _
        rw [if_neg fun h => hn h.1]
      rw [this]
      exact keeps_hashT hR (Q := fun _ => True) (fun b _ s s' h _ => hadd b s s' h) (P := fun _ => True)
        (fun n _ => keeps_named hR hd hadd f n) _ (CTy.all_true _) s s' h

/-! ## The effect of an edit -/

theorem overFin_edit {E N : St → St → Prop} {n : Nat} {f f' : Fin n → St → Res St} (i : Fin n)
    (hE : ∀ j, j ≠ i → ∀ s s', E s s' → Both E (f j s) (f' j s')) (hi : ∀ s s', E s s' → Both N (f i s) (f' i s'))
    (hN : ∀ j, j ≠ i → ∀ s s', N s s' → Both N (f j s) (f' j s')) :
    ∀ k j s s', j ≤ i.1 → i.1 < j + k → E s s' → Both N (overFin f k j s) (overFin f' k j s')
  | 0, j, s, s', h1, h2, h => by omega
  | k + 1, j, s, s', h1, h2, h => by
    have hj : j < n := Nat.lt_of_le_of_lt h1 i.2
    unfold TypeHash.overFin
    rw [dif_pos hj, dif_pos hj]
    by_cases hji : j = i.1
    · have hfin : (⟨j, hj⟩ : Fin n) = i := Fin.ext hji
      rw [hfin]
      refine Both.bind (hi s s' h) fun s s' h => ?_
      have : ∀ k j, i.1 < j → ∀ s s', N s s' → Both N (TypeHash.overFin f k j s) (TypeHash.overFin f' k j s') := by
        intro k
        induction k with
        | zero => exact fun j _ s s' h => h
        | succ k ih =>
          intro j hj s s' h
          unfold TypeHash.overFin
          split
          · rename_i hjn
            refine Both.bind (hN ⟨j, hjn⟩ (fun he => ?_) s s' h) fun s s' h => ih (j + 1) (by omega) s s' h
            have := congrArg Fin.val he
            simp at this
            omega
          · exact h
      exact this k (j + 1) (by omega) s s' h
    · refine Both.bind (hE ⟨j, hj⟩ (fun he => hji (congrArg Fin.val he)) s s' h) fun s s' h => ?_
      exact overFin_edit i hE hi hN k (j + 1) s s' (by omega) (by omega) h

unseal Wrap.tag lit hashCombine in
theorem Wrap.tag_inj : ∀ v w : Wrap, v ≠ w → w.tag ≠ v.tag := by
  intro v w
  cases v <;> cases w <;> first | (intro h; exact absurd rfl h) | (intro _; decide +kernel)

unseal Multi.tag lit hashCombine in
theorem Multi.tag_inj : ∀ v w : Multi, v ≠ w → w.tag ≠ v.tag := by
  intro v w
  cases v <;> cases w <;> first | (intro h; exact absurd rfl h) | (intro _; decide +kernel)

unseal num in
theorem num_inj {n m : Nat} (h : n % 2 ^ 64 ≠ m % 2 ^ 64) : num m ≠ num n := by
  intro he
  have := congrArg BitVec.toNat he
  simp [num] at this
  omega

/-- From equal states, an edited type leads to different hashes. -/
theorem edit_hashT {E N : St → St → Prop} (hE : Keeps E) (hN : Keeps N)
    (haE : ∀ b s s', E s s' → E (s.1, s.2 ++ [b]) (s'.1, s'.2 ++ [b])) (haN : ∀ b s s', N s s' → N (s.1, s.2 ++ [b]) (s'.1, s'.2 ++ [b]))
    {rec rec' : Nat → St → Res St} (hrE : ∀ n s s', E s s' → Both E (rec n s) (rec' n s')) (hrN : ∀ n s s', N s s' → Both N (rec n s) (rec' n s'))
    (hEN : ∀ x y s s', y ≠ x → E s s' → N (hashCombine s.1 x, s.2) (hashCombine s'.1 y, s'.2)) :
    ∀ {t u : CTy}, Edit fl t u → ∀ s s', E s s' → Both N (hashT fl rec t s) (hashT fl rec' u s') := by
  have hTE : ∀ t s s', E s s' → Both E (hashT fl rec t s) (hashT fl rec' t s') := fun t s s' h =>
    keeps_hashT hE (Q := fun _ => True) (fun b _ s s' h _ => haE b s s' h) (P := fun _ => True) (fun n _ => hrE n) t (CTy.all_true t) s s' h
  have hTN : ∀ t s s', N s s' → Both N (hashT fl rec t s) (hashT fl rec' t s') := fun t s s' h =>
    keeps_hashT hN (Q := fun _ => True) (fun b _ s s' h _ => haN b s s' h) (P := fun _ => True) (fun n _ => hrN n) t (CTy.all_true t) s s' h
  have hcE : ∀ x s s', E s s' → Both E (comb x s) (comb x s') := fun x s s' h => hE.comb x s s' h
  have hcN : ∀ x s s', N s s' → Both N (comb x s) (comb x s') := fun x s s' h => hN.comb x s s' h
  have hcEN : ∀ x y, y ≠ x → ∀ s s', E s s' → Both N (comb x s) (comb y s') := fun x y hxy s s' h => hEN x y s s' hxy h
  have hlN : ∀ x s s', N s s' → Both N (.ok (hashCombine x s.1, s.2)) (.ok (hashCombine x s'.1, s'.2)) := by
    intro x s s' h
    rw [hashCombine_comm x, hashCombine_comm x]
    exact hN.comb x s s' h
  have hlEN : ∀ x y, y ≠ x → ∀ s s', E s s' → Both N (.ok (hashCombine x s.1, s.2)) (.ok (hashCombine y s'.1, s'.2)) := by
    intro x y hxy s s' h
    rw [hashCombine_comm x, hashCombine_comm y]
    exact hEN x y s s' hxy h
  intro t u he
  induction he with
  | @arraySize fl t n m hnm =>
    intro s s' h
    cases fl <;> simp only [hashT]
    · exact (hcE _ s s' h).bind fun s s' h => (hcEN _ _ (num_inj hnm) s s' h).bind (hTN _)
    · exact (hTE _ s s' h).bind fun s s' h => (hcE _ s s' h).bind (hcEN _ _ (num_inj hnm))
  | wrapKind hvw =>
    intro s s' h; simp only [hashT]
    exact (hcEN _ _ (Wrap.tag_inj _ _ hvw) s s' h).bind (hTN _)
  | multiKind hvw =>
    intro s s' h; simp only [hashT]
    exact (hcEN _ _ (Multi.tag_inj _ _ hvw) s s' h).bind (Both.overFin (fun i => hTN _) _ _)
  | fwsLog hnm =>
    intro s s' h; simp only [hashT]
    exact (hcE _ s s' h).bind fun s s' h => (hTE _ s s' h).bind fun s s' h => (hTE _ s s' h).bind (hlEN _ _ (num_inj hnm))
  | strongTag hg =>
    intro s s' h; simp only [hashT]
    exact (hcE _ s s' h).bind fun s s' h => (hTE _ s s' h).bind (hlEN _ _ hg.symm)
  | durationName hg =>
    intro s s' h; simp only [hashT]
    exact (hcE _ s s' h).bind fun s s' h => (hTE _ s s' h).bind (hlEN _ _ hg.symm)
  | timepointName hg =>
    intro s s' h; simp only [hashT]
    exact (hcE _ s s' h).bind fun s s' h => (hTE _ s s' h).bind (hlEN _ _ hg.symm)
  | @array fl t u n _ ih =>
    specialize ih hTE hTN
    intro s s' h
    cases fl <;> simp only [hashT]
    · exact (hcE _ s s' h).bind fun s s' h => (hcE _ s s' h).bind ih
    · exact (ih s s' h).bind fun s s' h => (hcN _ s s' h).bind (hcN _)
  | @pairFst fl t u b _ ih =>
    specialize ih hTE hTN
    intro s s' h
    cases fl <;> simp only [hashT]
    · exact (ih s s' h).bind fun s s' h => (hTN _ s s' h).bind (hcN _)
    · exact (hcE _ s s' h).bind fun s s' h => (ih s s' h).bind (hTN _)
  | @pairSnd fl t u a _ ih =>
    specialize ih hTE hTN
    intro s s' h
    cases fl <;> simp only [hashT]
    · exact (hTE _ s s' h).bind fun s s' h => (ih s s' h).bind (hcN _)
    · exact (hcE _ s s' h).bind fun s s' h => (hTE _ s s' h).bind ih
  | wrap _ ih =>
    specialize ih hTE hTN
    intro s s' h; simp only [hashT]
    exact (hcE _ s s' h).bind ih
  | @multi fl n t u w i _ hj ih =>
    specialize ih hTE hTN
    intro s s' h; simp only [hashT]
    refine (hcE _ s s' h).bind fun s s' h => ?_
    exact overFin_edit i (fun j hji s s' h => by rw [← hj j hji]; exact hTE _ s s' h) ih
      (fun j hji s s' h => by rw [← hj j hji]; exact hTN _ s s' h) n 0 s s' (Nat.zero_le _) (by omega) h
  | indexed _ ih => specialize ih hTE hTN; intro s s' h; simp only [hashT]; exact ih s s' h
  | @strong fl t u g _ ih =>
    specialize ih hTE hTN
    intro s s' h
    cases fl <;> simp only [hashT]
    · exact (hcE _ s s' h).bind fun s s' h => (ih s s' h).bind (hlN _)
    · exact ih s s' h
  | fwsSizes _ ih =>
    specialize ih hTE hTN
    intro s s' h; simp only [hashT]
    exact (hcE _ s s' h).bind fun s s' h => (ih s s' h).bind fun s s' h => (hTN _ s s' h).bind (hlN _)
  | fwsValues _ ih =>
    specialize ih hTE hTN
    intro s s' h; simp only [hashT]
    exact (hcE _ s s' h).bind fun s s' h => (hTE _ s s' h).bind fun s s' h => (ih s s' h).bind (hlN _)
  | @durationRep fl t u g p _ ih =>
    specialize ih hTE hTN
    intro s s' h
    cases fl <;> simp only [hashT]
    · exact (hcE _ s s' h).bind fun s s' h => (ih s s' h).bind (hlN _)
    · exact (hcE _ s s' h).bind fun s s' h => (ih s s' h).bind (hTN _)
  | @timepointDur fl t u g c _ ih =>
    specialize ih hTE hTN
    intro s s' h
    cases fl <;> simp only [hashT]
    · exact (hcE _ s s' h).bind fun s s' h => (ih s s' h).bind (hlN _)
    · exact (hcE _ s s' h).bind fun s s' h => (ih s s' h).bind (hTN _)

/-! ## Which types a run sees -/

/-- Names that a type mentions, without looking into structs or through pointers. -/
def CTy.mentions (env : Env) : CTy → HashT → Prop
  | .voidPtr b, x => x = b
  | .ptr b _, x => x = b
  | .int b _, x => x = b
  | .scalar b, x => x = b
  | .named n, x => x = env.base n
  | .array _ t, x => t.mentions env x
  | .pair a b, x => a.mentions env x ∨ b.mentions env x
  | .wrap _ t, x => t.mentions env x
  | .multi _ _ t, x => ∃ i, (t i).mentions env x
  | .string, _ => False
  | .indexed t, x => t.mentions env x
  | .strong _ t, x => t.mentions env x
  | .fws a b _, x => a.mentions env x ∨ b.mentions env x
  | .duration _ _ r, x => r.mentions env x
  | .timepoint _ _ d, x => d.mentions env x

/-- Names are used consistently: struct names belong to one struct, pointer names to one pointee. -/
def CTy.Fits (env : Env) (K : Nat) (pointee : HashT → Option CTy) : CTy → Prop
  | .voidPtr b => pointee b = none ∧ ∀ n, n < K → env.base n ≠ b
  | .ptr b t => pointee b = some t ∧ (∀ n, n < K → env.base n ≠ b) ∧ t.Fits env K pointee
  | .int b _ => pointee b = none ∧ ∀ n, n < K → env.base n ≠ b
  | .scalar b => pointee b = none ∧ ∀ n, n < K → env.base n ≠ b
  | .named n => n < K
  | .array _ t => t.Fits env K pointee
  | .pair a b => a.Fits env K pointee ∧ b.Fits env K pointee
  | .wrap _ t => t.Fits env K pointee
  | .multi _ _ t => ∀ i, (t i).Fits env K pointee
  | .string => True
  | .indexed t => t.Fits env K pointee
  | .strong _ t => t.Fits env K pointee
  | .fws a b _ => a.Fits env K pointee ∧ b.Fits env K pointee
  | .duration _ p r => p.Fits env K pointee ∧ r.Fits env K pointee
  | .timepoint _ c d => c.Fits env K pointee ∧ d.Fits env K pointee

/-- The names of the first `K` structs are distinct, and used consistently. -/
structure Names (env : Env) (K : Nat) (pointee : HashT → Option CTy) : Prop where
  distinct : ∀ n m, n < K → m < K → env.base n = env.base m → n = m
  noPtr : ∀ n, n < K → pointee (env.base n) = none
  fits : ∀ n, n < K → ∀ i, (env.field n i).Fits env K pointee

/-- What stands behind a name. -/
def Behind (env : Env) (K : Nat) (pointee : HashT → Option CTy) (b : HashT) (t : CTy) : Prop :=
  (∃ n, n < K ∧ env.base n = b ∧ ∃ i, t = env.field n i) ∨ pointee b = some t

/-- All that stands behind the new names has been seen. -/
def Covers (env : Env) (K : Nat) (pointee : HashT → Option CTy) (s s' : St) : Prop :=
  (∀ b ∈ s.2, b ∈ s'.2) ∧ ∀ b ∈ s'.2, b ∉ s.2 → ∀ t, Behind env K pointee b t → ∀ x, t.mentions env x → x ∈ s'.2

/-- If the run ends, then with `P`. -/
def Partial (P : St → Prop) (r : Res St) : Prop := ∀ s, r = .ok s → P s

theorem Partial.bind {P Q : St → Prop} {r : Res St} {k : St → Res St} (h : Partial P r) (hk : ∀ s, P s → Partial Q (k s)) : Partial Q (r >>= k) := by
  intro s hs
  cases r with
  | error e => cases hs
  | ok s' => exact hk s' (h s' rfl) s hs

variable {K : Nat} {pointee : HashT → Option CTy}

theorem Covers.trans {s s' s'' : St} (h : Covers env K pointee s s') (h' : Covers env K pointee s' s'') : Covers env K pointee s s'' := by
  refine ⟨fun b hb => h'.1 b (h.1 b hb), fun b hb hn t ht x hx => ?_⟩
  by_cases hm : b ∈ s'.2
  · exact h'.1 x (h.2 b hm hn t ht x hx)
  · exact h'.2 b hb hm t ht x hx

theorem Covers.refl (s : St) : Covers env K pointee s s := ⟨fun b hb => hb, fun b hb hn => absurd hb hn⟩

theorem Covers.comb (s : St) (x : HashT) : Covers env K pointee s (hashCombine s.1 x, s.2) := ⟨fun b hb => hb, fun b hb hn => absurd hb hn⟩

theorem Covers.last (s : St) (x : HashT) : Covers env K pointee s (hashCombine x s.1, s.2) := ⟨fun b hb => hb, fun b hb hn => absurd hb hn⟩

/-- Covering, and the mentioned names have been seen. -/
def Seen (env : Env) (K : Nat) (pointee : HashT → Option CTy) (M : HashT → Prop) (s s' : St) : Prop :=
  Covers env K pointee s s' ∧ ∀ x, M x → x ∈ s'.2

theorem Seen.bind {M M' : HashT → Prop} {s : St} {r : Res St} {k : St → Res St} (h : Partial (Seen env K pointee M s) r)
    (hk : ∀ s', Partial (Seen env K pointee M' s') (k s')) : Partial (Seen env K pointee (fun x => M x ∨ M' x) s) (r >>= k) :=
  Partial.bind h fun s' h' s'' h'' => by
    have h2 := hk s' s'' h''
    refine ⟨h'.1.trans h2.1, fun x hx => ?_⟩
    rcases hx with hx | hx
    · exact h2.1.1 x (h'.2 x hx)
    · exact h2.2 x hx

theorem Seen.mono {M M' : HashT → Prop} {s : St} {r : Res St} (h : Partial (Seen env K pointee M s) r) (hM : ∀ x, M' x → M x) :
    Partial (Seen env K pointee M' s) r := fun s' hs' => ⟨(h s' hs').1, fun x hx => (h s' hs').2 x (hM x hx)⟩

theorem seen_comb (s : St) (x : HashT) : Partial (Seen env K pointee (fun _ => False) s) (comb x s) := by
  intro s' hs'
  cases hs'
  exact ⟨Covers.comb s x, fun _ h => h.elim⟩

theorem seen_last (s : St) (x : HashT) : Partial (Seen env K pointee (fun _ => False) s) (.ok (hashCombine x s.1, s.2)) := by
  intro s' hs'
  cases hs'
  exact ⟨Covers.last s x, fun _ h => h.elim⟩

theorem seen_once {b : HashT} {k : St → Res St} {M : HashT → Prop} (hk : ∀ s, Partial (Seen env K pointee M s) (k s))
    (hb : ∀ t, Behind env K pointee b t → ∀ x, t.mentions env x → M x) (s : St) :
    Partial (Seen env K pointee (fun x => x = b) s) (once fl b k s) := by
  have hadd : Partial (Seen env K pointee (fun x => x = b) s) (k (s.1, s.2 ++ [b])) := by
    intro s' hs'
    have h := hk _ s' hs'
    have hmem : b ∈ s'.2 := h.1.1 b (by simp)
    refine ⟨⟨fun x hx => h.1.1 x (List.mem_append_left _ hx), fun x hx hn t ht y hy => ?_⟩, fun x hx => hx ▸ hmem⟩
    by_cases hxb : x = b
    · subst hxb
      exact h.2 y (hb t ht y hy)
    · exact h.1.2 x hx (fun hm => by
        rcases List.mem_append.1 hm with hm | hm
        · exact hn hm
        · simp at hm; exact hxb hm) t ht y hy
  unfold once
  cases hi : s.2.findIdx? (· == b) with
  | some i =>
    intro s' hs'
    cases hs'
    refine ⟨Covers.comb s _, fun x hx => ?_⟩
    by_cases hm : b ∈ s.2
    · rw [hx]; exact hm
    · rw [findIdx?_none.2 hm] at hi; cases hi
  | none =>
    cases fl with
    | dynamic => exact hadd
    | static m =>
      dsimp only
      split
      · exact hadd
      · intro s' hs'; cases hs'

theorem seen_overFin {n : Nat} {f : Fin n → St → Res St} {M : Fin n → HashT → Prop} (hf : ∀ i s, Partial (Seen env K pointee (M i) s) (f i s)) :
    ∀ k j s, Partial (Seen env K pointee (fun x => ∃ i : Fin n, j ≤ i.1 ∧ i.1 < j + k ∧ M i x) s) (overFin f k j s)
  | 0, j, s => by
    intro s' hs'
    cases hs'
    exact ⟨Covers.refl s, fun x ⟨i, h1, h2, _⟩ => by omega⟩
  | k + 1, j, s => by
    unfold overFin
    split
    · rename_i hj
      refine Seen.mono (Seen.bind (hf ⟨j, hj⟩ s) fun s => seen_overFin hf k (j + 1) s) ?_
      rintro x ⟨i, h1, h2, hx⟩
      by_cases hij : i.1 = j
      · left
        have : i = ⟨j, hj⟩ := Fin.ext hij
        rw [← this]; exact hx
      · exact .inr ⟨i, by omega, by omega, hx⟩
    · rename_i hj
      intro s' hs'
      cases hs'
      exact ⟨Covers.refl s, fun x ⟨i, h1, h2, _⟩ => absurd i.2 (by omega)⟩

theorem seen_hashT {rec : Nat → St → Res St} (hN : Names env K pointee)
    (hr : ∀ n, n < K → ∀ s, Partial (Seen env K pointee (fun x => x = env.base n) s) (rec n s)) :
    ∀ t : CTy, t.Fits env K pointee → ∀ s, Partial (Seen env K pointee (t.mentions env) s) (hashT fl rec t s) := by
  have leaf : ∀ b, (pointee b = none ∧ ∀ n, n < K → env.base n ≠ b) → ∀ t, ¬ Behind env K pointee b t := by
    rintro b ⟨h1, h2⟩ t (⟨n, hn, hb, _⟩ | h)
    · exact h2 n hn hb
    · rw [h1] at h; cases h
  intro t
  induction t with
  | voidPtr b => intro ht s; simp only [hashT]; exact seen_once (fun s => seen_comb s _) (fun t hb => absurd hb (leaf b ht t)) s
  | ptr b t ih =>
    intro ht s; simp only [hashT]
    refine seen_once (fun s => Seen.bind (seen_comb s _) (ih ht.2.2)) ?_ s
    rintro u (⟨n, hn, hb, _⟩ | h) x hx
    · exact absurd hb (ht.2.1 n hn)
    · rw [ht.1] at h; cases h; exact .inr hx
  | int b n =>
    intro ht s; simp only [hashT]
    exact seen_once (fun s => Seen.bind (seen_comb s _) fun s => seen_comb s _) (fun t hb => absurd hb (leaf b ht t)) s
  | scalar b => intro ht s; simp only [hashT]; exact seen_once (fun s => seen_comb s _) (fun t hb => absurd hb (leaf b ht t)) s
  | named n => intro ht s; simp only [hashT]; exact hr n ht s
  | array n t ih =>
    intro ht s
    cases fl <;> simp only [hashT]
    · exact Seen.mono (Seen.bind (seen_comb s _) fun s => Seen.bind (seen_comb s _) (ih ht)) fun x hx => .inr (.inr hx)
    · exact Seen.mono (Seen.bind (ih ht s) fun s => Seen.bind (seen_comb s _) fun s => seen_comb s _) fun x hx => .inl hx
  | pair a b iha ihb =>
    intro ht s
    cases fl <;> simp only [hashT]
    · refine Seen.mono (Seen.bind (iha ht.1 s) fun s => Seen.bind (ihb ht.2 s) fun s => seen_comb s _) fun x hx => ?_
      rcases hx with hx | hx
      · exact .inl hx
      · exact .inr (.inl hx)
    · exact Seen.mono (Seen.bind (seen_comb s _) fun s => Seen.bind (iha ht.1 s) (ihb ht.2)) fun x hx => .inr hx
  | wrap w t ih => intro ht s; simp only [hashT]; exact Seen.mono (Seen.bind (seen_comb s _) (ih ht)) fun x hx => .inr hx
  | multi w n t ih =>
    intro ht s; simp only [hashT]
    refine Seen.mono (Seen.bind (seen_comb s _) (seen_overFin (fun i => ih i (ht i)) _ _)) fun x hx => .inr ?_
    obtain ⟨i, hi⟩ := hx
    exact ⟨i, Nat.zero_le _, by omega, hi⟩
  | string => intro ht s; simp only [hashT]; exact Seen.mono (seen_comb s _) fun x hx => hx
  | indexed t ih => intro ht s; simp only [hashT]; exact ih ht s
  | strong g t ih =>
    intro ht s
    cases fl <;> simp only [hashT]
    · exact Seen.mono (Seen.bind (seen_comb s _) fun s => Seen.bind (ih ht s) fun s => seen_last s _) fun x hx => .inr (.inl hx)
    · exact ih ht s
  | fws a b k iha ihb =>
    intro ht s; simp only [hashT]
    refine Seen.mono (Seen.bind (seen_comb s _) fun s => Seen.bind (iha ht.1 s) fun s => Seen.bind (ihb ht.2 s) fun s => seen_last s _) fun x hx => ?_
    rcases hx with hx | hx
    · exact .inr (.inl hx)
    · exact .inr (.inr (.inl hx))
  | duration nm p r ihp ihr =>
    intro ht s
    cases fl <;> simp only [hashT]
    · exact Seen.mono (Seen.bind (seen_comb s _) fun s => Seen.bind (ihr ht.2 s) fun s => seen_last s _) fun x hx => .inr (.inl hx)
    · exact Seen.mono (Seen.bind (seen_comb s _) fun s => Seen.bind (ihr ht.2 s) (ihp ht.1)) fun x hx => .inr (.inl hx)
  | timepoint nm c d ihc ihd =>
    intro ht s
    cases fl <;> simp only [hashT]
    · exact Seen.mono (Seen.bind (seen_comb s _) fun s => Seen.bind (ihd ht.2 s) fun s => seen_last s _) fun x hx => .inr (.inl hx)
    · exact Seen.mono (Seen.bind (seen_comb s _) fun s => Seen.bind (ihd ht.2 s) (ihc ht.1)) fun x hx => .inr (.inl hx)

theorem seen_named (hN : Names env K pointee) : ∀ f n, n < K → ∀ s, Partial (Seen env K pointee (fun x => x = env.base n) s) (hashNamed fl env f n s)
  | 0, n, hn, s => by intro s' hs'; cases hs'
  | f + 1, n, hn, s => by
    unfold hashNamed
    refine seen_once (M := fun x => False ∨ ∃ i : Fin (env.arity n), 0 ≤ i.1 ∧ i.1 < 0 + env.arity n ∧ (env.field n i).mentions env x)
      (fun s => Seen.bind (seen_comb s _) (seen_overFin (fun i => seen_hashT hN (seen_named hN f) _ (hN.fits n hn i)) _ _)) ?_ s
    rintro t (⟨m, hm, hb, i, rfl⟩ | h) x hx
    · have := hN.distinct m n hm hn hb
      subst this
      exact .inr ⟨i, Nat.zero_le _, by omega, hx⟩
    · rw [hN.noPtr n hn] at h; cases h

/-- Struct or integer type `x` is part of type `t`. -/
inductive Uses (env : Env) : CTy → HashT → Prop
  | struct {n : Nat} : Uses env (.named n) (env.base n)
  | int {b : HashT} {k : Nat} : Uses env (.int b k) b
  | member {n : Nat} {x : HashT} (i : Fin (env.arity n)) : Uses env (env.field n i) x → Uses env (.named n) x
  | ptr {b x : HashT} {t : CTy} : Uses env t x → Uses env (.ptr b t) x
  | array {n : Nat} {x : HashT} {t : CTy} : Uses env t x → Uses env (.array n t) x
  | pairFst {x : HashT} {a b : CTy} : Uses env a x → Uses env (.pair a b) x
  | pairSnd {x : HashT} {a b : CTy} : Uses env b x → Uses env (.pair a b) x
  | wrap {w : Wrap} {x : HashT} {t : CTy} : Uses env t x → Uses env (.wrap w t) x
  | multi {w : Multi} {n : Nat} {x : HashT} {t : Fin n → CTy} (i : Fin n) : Uses env (t i) x → Uses env (.multi w n t) x
  | indexed {x : HashT} {t : CTy} : Uses env t x → Uses env (.indexed t) x
  | strong {g x : HashT} {t : CTy} : Uses env t x → Uses env (.strong g t) x
  | fwsSizes {k : Nat} {x : HashT} {a b : CTy} : Uses env a x → Uses env (.fws a b k) x
  | fwsValues {k : Nat} {x : HashT} {a b : CTy} : Uses env b x → Uses env (.fws a b k) x
  | durationRep {g x : HashT} {p r : CTy} : Uses env r x → Uses env (.duration g p r) x
  | timepointDur {g x : HashT} {c d : CTy} : Uses env d x → Uses env (.timepoint g c d) x

theorem uses_seen (hN : Names env K pointee) {D : List HashT} (hD : ∀ b ∈ D, ∀ t, Behind env K pointee b t → ∀ x, t.mentions env x → x ∈ D) {t : CTy} {x : HashT} (hu : Uses env t x) : t.Fits env K pointee → (∀ y, t.mentions env y → y ∈ D) → x ∈ D := by
  induction hu with
  | struct => exact fun ht hm => hm _ rfl
  | int => exact fun ht hm => hm _ rfl
  | @member n x i _ ih => exact fun ht hm => ih (hN.fits n ht i) fun y hy => hD _ (hm _ rfl) _ (.inl ⟨n, ht, rfl, i, rfl⟩) y hy
  | ptr _ ih => exact fun ht hm => ih ht.2.2 fun y hy => hD _ (hm _ rfl) _ (.inr ht.1) y hy
  | array _ ih => exact fun ht hm => ih ht hm
  | pairFst _ ih => exact fun ht hm => ih ht.1 fun y hy => hm y (.inl hy)
  | pairSnd _ ih => exact fun ht hm => ih ht.2 fun y hy => hm y (.inr hy)
  | wrap _ ih => exact fun ht hm => ih ht hm
  | multi i _ ih => exact fun ht hm => ih (ht i) fun y hy => hm y ⟨i, hy⟩
  | indexed _ ih => exact fun ht hm => ih ht hm
  | strong _ ih => exact fun ht hm => ih ht hm
  | fwsSizes _ ih => exact fun ht hm => ih ht.1 fun y hy => hm y (.inl hy)
  | fwsValues _ ih => exact fun ht hm => ih ht.2 fun y hy => hm y (.inr hy)
  | durationRep _ ih => exact fun ht hm => ih ht.2 hm
  | timepointDur _ ih => exact fun ht hm => ih ht.2 hm

/-- A finished run has seen all used types. -/
theorem used_in_done (hN : Names env K pointee) {t : CTy} (ht : t.Fits env K pointee) {x : HashT} (hu : Uses env t x) {f : Nat} {h : HashT} {s : St}
    (hs : hashT fl (hashNamed fl env f) t (h, []) = .ok s) : x ∈ s.2 := by
  have := seen_hashT hN (seen_named hN f) t ht (h, []) s hs
  exact uses_seen hN (fun b hb => this.1.2 b hb (by simp)) hu ht this.2

theorem Both.weaken {R R' : St → St → Prop} {r r' : Res St} (h : Both R r r') (hR : ∀ s s', R s s' → R' s s') : Both R' r r' := by
  cases r <;> cases r' <;> first | exact hR _ _ h | exact h

theorem fits_all {x : HashT} {t : CTy} (hx : ∃ c, c < K ∧ env.base c = x) : t.Fits env K pointee → t.All (· ≠ x) (· ≠ x) (· < K) := by
  obtain ⟨c, hc, rfl⟩ := hx
  induction t with
  | voidPtr b => exact fun h => (h.2 c hc).symm
  | ptr b t ih => exact fun h => ⟨(h.2.1 c hc).symm, ih h.2.2⟩
  | int b n => exact fun h => (h.2 c hc).symm
  | scalar b => exact fun h => (h.2 c hc).symm
  | named n => exact id
  | array n t ih => exact ih
  | pair a b iha ihb => exact fun h => ⟨iha h.1, ihb h.2⟩
  | wrap w t ih => exact ih
  | multi w n t ih => exact fun h i => ih i (h i)
  | string => exact id
  | indexed t ih => exact ih
  | strong g t ih => exact ih
  | fws a b k iha ihb => exact fun h => ⟨iha h.1, ihb h.2⟩
  | duration nm p r ihp ihr => exact fun h => ⟨ihp h.1, ihr h.2⟩
  | timepoint nm c d ihc ihd => exact fun h => ⟨ihc h.1, ihd h.2⟩

theorem ne1_of_eq1 {b : HashT} (x y : HashT) (s s' : St) (hxy : y ≠ x) (h : Eq1 b s s') : Ne1 b (hashCombine s.1 x, s.2) (hashCombine s'.1 y, s'.2) := by
  rw [h.1]
  exact ⟨rfl, fun he => hxy (Hash.hashCombine_inj_val he), h.2⟩

/-- The edited struct makes the difference. -/
theorem apart_named (hN : Names env K pointee) {c : Nat} (hc : c < K) (i : Fin (env.arity c)) {u : CTy} (he : Edit fl (env.field c i) u) :
    ∀ f n, n < K → ∀ s s', Apart (env.base c) s s' →
      Both (Apart (env.base c)) (hashNamed fl env f n s) (hashNamed fl (env.edit c i.1 u) f n s')
  | 0, n, hn, s, s', h => rfl
  | f + 1, n, hn, s, s', h => by
    by_cases hnc : n = c
    · subst hnc
      rcases h with ⟨rfl, hb⟩ | h
      · refine Both.weaken (R := Ne1 (env.base n)) ?_ fun s s' h => .inr h
        unfold hashNamed
        have hbase : (env.edit n i.1 u).base n = env.base n := rfl
        rw [hbase]
        have key : Both (Ne1 (env.base n))
            ((fun s : St => (do
              let s ← comb (lit ['s', 't', 'r', 'u', 'c', 't']) s
              overFin (fun j s => hashT fl (hashNamed fl env f) (env.field n j) s) (env.arity n) 0 s : Res St)) (s'.1, s'.2 ++ [env.base n]))
            ((fun s : St => (do
              let s ← comb (lit ['s', 't', 'r', 'u', 'c', 't']) s
              overFin (fun j s => hashT fl (hashNamed fl (env.edit n i.1 u) f) ((env.edit n i.1 u).field n j) s) (env.arity n) 0 s : Res St))
              (s'.1, s'.2 ++ [env.base n])) := by
          refine Both.bind (R := Eq1 (env.base n)) (R' := Ne1 (env.base n)) ((keeps_eq1 _).comb _ (s'.1, s'.2 ++ [env.base n]) _ ⟨rfl, by simp⟩) fun s s' h => ?_
          have hE := keeps_named (fl := fl) (env := env) (c := n) (i := i.1) (u := u) (keeps_eq1 (env.base n)) (fun s s' h => h.2) (fun b s s' h => add_eq1 h) f
          have hNe := keeps_named (fl := fl) (env := env) (c := n) (i := i.1) (u := u) (keeps_ne1 (env.base n)) (fun s s' h => h.2.2) (fun b s s' h => add_ne1 h) f
          have hother : ∀ j : Fin (env.arity n), j ≠ i → (env.edit n i.1 u).field n j = env.field n j := fun j hj => by
            show (if n = n ∧ j.1 = i.1 then u else env.field n j) = _
            rw [if_neg fun h => hj (Fin.ext h.2)]
          refine overFin_edit (E := Eq1 (env.base n)) i (fun j hj s s' h => ?_) (fun s s' h => ?_) (fun j hj s s' h => ?_) _ 0 s s' (Nat.zero_le _) (by omega) h
          · rw [hother j hj]
            exact keeps_hashT (keeps_eq1 _) (Q := fun _ => True) (fun b _ s s' h _ => add_eq1 h) (P := fun _ => True) (fun m _ => hE m) _ (CTy.all_true _) s s' h
          · have : (env.edit n i.1 u).field n i = u := by
              show (if n = n ∧ i.1 = i.1 then u else env.field n i) = _
              rw [if_pos ⟨rfl, rfl⟩]
            rw [this]
            exact edit_hashT (keeps_eq1 _) (keeps_ne1 _) (fun b s s' h => add_eq1 h) (fun b s s' h => add_ne1 h) hE hNe ne1_of_eq1 he s s' h
          · rw [hother j hj]
            exact keeps_hashT (keeps_ne1 _) (Q := fun _ => True) (fun b _ s s' h _ => add_ne1 h) (P := fun _ => True) (fun m _ => hNe m) _ (CTy.all_true _) s s' h
        unfold once
        rw [findIdx?_none.2 hb]
        cases fl with
        | dynamic => exact key
        | static m =>
          dsimp only
          split
          · exact key
          · exact rfl
      · exact (keeps_named (fl := fl) (env := env) (c := n) (i := i.1) (u := u) (keeps_ne1 (env.base n)) (fun s s' h => h.2.2) (fun b s s' h => add_ne1 h)
          (f + 1) n s s' h).weaken fun s s' h => .inr h
    · unfold hashNamed
      have hne : env.base n ≠ env.base c := fun h => hnc (hN.distinct n c hn hc h)
      refine (keeps_apart _).once (fun s s' h _ => add_apart hne h) (fun s s' h => ?_) h
      refine Both.bind (R := Apart (env.base c)) (R' := Apart (env.base c)) ((keeps_apart _).comb _ s s' h) fun s s' h => ?_
      refine Both.overFin (fun j s s' h => ?_) _ _ s s' h
      have : (env.edit c i.1 u).field n j = env.field n j := by
        show (if n = c ∧ j.1 = i.1 then u else env.field n j) = _
        rw [if_neg fun h => hnc h.1]
      rw [this]
      exact keeps_hashT (keeps_apart _) (Q := (· ≠ env.base c)) (fun b hb s s' h _ => add_apart hb h) (P := (· < K))
        (apart_named hN hc i he f) _ (fits_all ⟨c, hc, rfl⟩ (hN.fits n hn j)) s s' h

/-! ## An integer type resized -/

/-- The program with `k` bytes in the integer type `c`. -/
def Env.resize (env : Env) (c : HashT) (k : Nat) : Env where
  base := env.base
  arity := env.arity
  field := fun n i => (env.field n i).resize c k

/-- The name `c` only stands for an integer type with `k₀` bytes. -/
def CTy.OnlyInt (c : HashT) (k₀ : Nat) (t : CTy) : Prop := t.AllI (· ≠ c) (· ≠ c) (fun b n => b = c → n = k₀) (fun _ => True)

theorem CTy.AllI.structs {Q Qs : HashT → Prop} {Qi : HashT → Nat → Prop} {P P' : Nat → Prop} {t : CTy} (h : t.AllI Q Qs Qi P)
    (h' : t.AllI (fun _ => True) (fun _ => True) (fun _ _ => True) P') : t.AllI Q Qs Qi P' := by
  induction t with
  | voidPtr b => exact h
  | ptr b t ih => exact ⟨h.1, ih h.2 h'.2⟩
  | int b n => exact h
  | scalar b => exact h
  | named n => exact h'
  | array n t ih => exact ih h h'
  | pair a b iha ihb => exact ⟨iha h.1 h'.1, ihb h.2 h'.2⟩
  | wrap w t ih => exact ih h h'
  | multi w n t ih => exact fun i => ih i (h i) (h' i)
  | string => exact h
  | indexed t ih => exact ih h h'
  | strong g t ih => exact ih h h'
  | fws a b k iha ihb => exact ⟨iha h.1 h'.1, ihb h.2 h'.2⟩
  | duration nm p r ihp ihr => exact ⟨ihp h.1 h'.1, ihr h.2 h'.2⟩
  | timepoint nm c d ihc ihd => exact ⟨ihc h.1 h'.1, ihd h.2 h'.2⟩

theorem resize_int {rec rec' : Nat → St → Res St} {c : HashT} {k₀ k : Nat} (hk : k₀ % 2 ^ 64 ≠ k % 2 ^ 64) (b : HashT) (n : Nat) (hn : b = c → n = k₀)
    (s s' : St) (h : Apart c s s') : Both (Apart c) (hashT fl rec (.int b n) s) (hashT fl rec' (.int b (if b = c then k else n)) s') := by
  have hsame : ∀ s s' : St, Apart c s s' → Both (Apart c) ((fun s => (do let s ← comb (lit ['i']) s; comb (num n) s : Res St)) s)
      ((fun s => (do let s ← comb (lit ['i']) s; comb (num n) s : Res St)) s') := fun s s' h =>
    (both_comb ((keeps_apart c).comb _ s s' h)).bind fun s s' h => both_comb ((keeps_apart c).comb _ s s' h)
  by_cases hbc : b = c
  · have := hn hbc
    subst this
    subst hbc
    rw [if_pos rfl]
    simp only [hashT]
    rcases h with ⟨rfl, hb⟩ | h
    · unfold once
      rw [findIdx?_none.2 hb]
      have key : Both (Apart b) ((fun s => (do let s ← comb (lit ['i']) s; comb (num n) s : Res St)) (s'.1, s'.2 ++ [b]))
          ((fun s => (do let s ← comb (lit ['i']) s; comb (num k) s : Res St)) (s'.1, s'.2 ++ [b])) := by
        refine Both.bind (R := Eq1 b) (both_comb ((keeps_eq1 b).comb _ (s'.1, s'.2 ++ [b]) _ ⟨rfl, by simp⟩)) fun s s' h => ?_
        exact .inr (ne1_of_eq1 _ _ s s' (num_inj hk) h)
      cases fl with
      | dynamic => exact key
      | static m =>
        dsimp only
        split
        · exact key
        · exact rfl
    · unfold once
      rw [h.1]
      cases hi : s.2.findIdx? (· == b) with
      | some i => exact both_comb (.inr ((keeps_ne1 b).comb _ s s' h))
      | none => exact absurd h.2.2 (findIdx?_none.1 hi)
  · rw [if_neg hbc]
    simp only [hashT]
    exact (keeps_apart c).once (fun s s' h _ => add_apart hbc h) hsame h

theorem resize_hashT {rec rec' : Nat → St → Res St} {c : HashT} {k₀ k : Nat} (hk : k₀ % 2 ^ 64 ≠ k % 2 ^ 64) {P : Nat → Prop}
    (hr : ∀ n, P n → ∀ s s', Apart c s s' → Both (Apart c) (rec n s) (rec' n s')) (t : CTy)
    (ht : t.AllI (· ≠ c) (· ≠ c) (fun b n => b = c → n = k₀) P) (s s' : St) (h : Apart c s s') :
    Both (Apart c) (hashT fl rec t s) (hashT fl rec' (t.resize c k) s') :=
  both_hashT (flavor_same fl) (keeps_apart c).comb (fun b hb k k' hk s s' h => (keeps_apart c).once (fun s s' h _ => add_apart hb h) hk h)
    (fun b hb k k' hk s s' h => (keeps_apart c).once (fun s s' h _ => add_apart hb h) hk h) (fun b n hb s s' h => resize_int hk b n hb s s' h)
    hr t ht s s' h

theorem resize_named {c : HashT} {k₀ k : Nat} (hk : k₀ % 2 ^ 64 ≠ k % 2 ^ 64) (hbase : ∀ n, n < K → env.base n ≠ c)
    (hfield : ∀ n, n < K → ∀ i, (env.field n i).AllI (· ≠ c) (· ≠ c) (fun b n => b = c → n = k₀) (· < K)) :
    ∀ f n, n < K → ∀ s s', Apart c s s' → Both (Apart c) (hashNamed fl env f n s) (hashNamed fl (env.resize c k) f n s')
  | 0, n, hn, s, s', h => rfl
  | f + 1, n, hn, s, s', h => by
    unfold hashNamed
    refine (keeps_apart c).once (fun s s' h _ => add_apart (hbase n hn) h) (fun s s' h => ?_) h
    refine (both_comb ((keeps_apart c).comb _ s s' h)).bind fun s s' h => ?_
    exact Both.overFin (fun i s s' h => resize_hashT hk (resize_named hk hbase hfield f) _ (hfield n hn i) s s' h) _ _ s s' h

end Cista.TypeHash

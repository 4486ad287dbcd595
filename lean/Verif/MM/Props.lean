import Verif.MM.Ops

set_option linter.unusedSimpArgs false

/-!
# C18, C19, C20, C52: the mutable multimap against a list of lists

Specification: the state is a list of lists.  An operation that would need more than `2^K` entries in one bucket
throws and changes nothing.
-/
namespace Cista.MM

variable {α : Type} {lo : Nat}

/-- The mutating operations.  `i` is the bucket, `k` a key. -/
inductive Op (α : Type) where
  | index (k : Nat)
  | getOrCreate (k : Nat)
  | emplaceBucket
  | push (i : Nat) (v : α)
  | insert (i pos : Nat) (v : α)
  | reserve (i n : Nat)
  | resize (i n : Nat) (v : α)
  | popBack (i : Nat)
  | clearBucket (i : Nat)
  | erase (i pos : Nat)
  | eraseRange (i p q : Nat)
  | write (i j : Nat) (v : α)
  | eraseKey (k : Nat)
  | clear
deriving DecidableEq, Repr

def Op.exec (W K : Nat) (dflt : α) (m : Map α) : Op α → Res (Map α)
  | .index k => .ok (m.touch W k)
  | .getOrCreate k => m.getOrCreate W k
  /- mutable_fws_multimap.h:421 -/
  | .emplaceBucket => .ok (m.touch W m.index.length)
  | .push i v => m.pushBack W K dflt i v
  | .insert i pos v => m.insert W K dflt i pos v
  | .reserve i n => m.reserve W K dflt i n
  | .resize i n v => m.resize W K dflt i n v
  | .popBack i => m.popBack W K dflt i
  | .clearBucket i => m.clearBucket i
  | .erase i pos => m.erase i pos
  | .eraseRange i p q => m.eraseRange i p q
  | .write i j v => m.write i j v
  | .eraseKey k => m.eraseKey W k
  | .clear => .ok m.clear

/-- Run a history; the caller catches exceptions.  Also returns which operations threw. -/
def run (W K : Nat) (dflt : α) : List (Op α) → Map α → Res (Map α × List Bool)
  | [], m => .ok (m, [])
  | op :: ops, m => match op.exec W K dflt m with
    | .ok m' => (run W K dflt ops m').map fun r => (r.1, false :: r.2)
    | .error .exn => (run W K dflt ops m).map fun r => (r.1, true :: r.2)
    | .error e => .error e

/-! ## Specification on lists of lists -/

def bucket (L : List (List α)) (i : Nat) : List α := (L[i]?).getD []

/-- Make sure that key `k` exists. -/
def ensure (L : List (List α)) (k : Nat) : List (List α) := L ++ List.replicate (k + 1 - L.length) []

/-- Size a bucket needs for the operation (0: no growth). -/
def Op.needs (L : List (List α)) : Op α → Nat
  | .push i _ => (bucket L i).length + 1
  | .insert i _ _ => (bucket L i).length + 1
  | .reserve _ n => n
  | .resize _ n _ => n
  | _ => 0

/-- The effect on the list of lists, if the operation does not throw. -/
def Op.lists (L : List (List α)) : Op α → List (List α)
  | .index k => ensure L k
  | .getOrCreate k => ensure L k
  | .emplaceBucket => L ++ [[]]
  | .push i v => L.set i (bucket L i ++ [v])
  | .insert i pos v => L.set i ((bucket L i).take pos ++ v :: (bucket L i).drop pos)
  | .reserve _ _ => L
  | .resize i n v => L.set i ((bucket L i).take n ++ List.replicate (n - (bucket L i).length) v)
  | .popBack i => L.set i (bucket L i).dropLast
  | .clearBucket i => L.set i []
  | .erase i pos => L.set i ((bucket L i).eraseIdx pos)
  | .eraseRange i p q => L.set i ((bucket L i).take p ++ (bucket L i).drop q)
  | .write i j v => L.set i ((bucket L i).set j v)
  | .eraseKey k => L.set k []
  | .clear => []

/-- Elements dropped by `erase(key)` since the last `clear`. -/
def Op.lost (L : List (List α)) (n : Nat) : Op α → Nat
  | .eraseKey k => n + (bucket L k).length
  | .clear => 0
  | _ => n

/-- Does the operation throw? -/
def Op.throws (K : Nat) (L : List (List α)) (op : Op α) : Bool := decide (2 ^ K < op.needs L)

/-- Preconditions: the bucket exists, positions are valid, sizes are values of the size type and keys fit the
32-bit size of the index vector. -/
def Op.Pre (W : Nat) (L : List (List α)) : Op α → Prop
  | .index k => k + 1 < 2 ^ 32
  | .getOrCreate k => k + 1 < 2 ^ 32
  | .emplaceBucket => L.length + 1 < 2 ^ 32
  | .push i _ => i < L.length
  | .insert i pos _ => i < L.length ∧ pos ≤ (bucket L i).length
  | .reserve i n => i < L.length ∧ n < 2 ^ W
  | .resize i n _ => i < L.length ∧ n < 2 ^ W
  | .popBack i => i < L.length
  | .clearBucket i => i < L.length
  | .erase i pos => i < L.length ∧ pos < (bucket L i).length
  | .eraseRange i p q => i < L.length ∧ p ≤ q ∧ q ≤ (bucket L i).length
  | .write i j _ => i < L.length ∧ j < (bucket L i).length
  | .eraseKey _ => True
  | .clear => True

/-- Upper bound of the storage an operation can add: twice the requested size when a bucket may have to grow.  A
push or insert can grow a bucket only when its size is zero or a power of two. -/
def Op.cost (K : Nat) (L : List (List α)) (op : Op α) : Nat :=
  if op.throws K L then 0 else match op with
  | .push i _ => if full (bucket L i).length then 2 * ((bucket L i).length + 1) else 0
  | .insert i _ _ => if full (bucket L i).length then 2 * ((bucket L i).length + 1) else 0
  | .reserve _ n => 2 * n
  | .resize i n _ => if (bucket L i).length < n then 2 * n else 0
  | _ => 0

/-- State of the specification after a history: the lists, the elements lost to `erase(key)`, the storage bound
and which operations threw. -/
structure SpecState (α : Type) where
  lists : List (List α)
  lost : Nat
  cost : Nat
  thrown : List Bool

def Op.spec (K : Nat) (S : SpecState α) (op : Op α) : SpecState α :=
  if op.throws K S.lists then { S with thrown := S.thrown ++ [true] }
  else ⟨op.lists S.lists, op.lost S.lists S.lost, S.cost + op.cost K S.lists, S.thrown ++ [false]⟩

def specRun (K : Nat) (ops : List (Op α)) : SpecState α := ops.foldl (Op.spec K) ⟨[], 0, 0, []⟩

/-- Every operation meets its precondition when it is executed. -/
def Allowed (W K : Nat) : List (Op α) → SpecState α → Prop
  | [], _ => True
  | op :: ops, S => op.Pre W S.lists ∧ Allowed W K ops (op.spec K S)

def start : SpecState α := ⟨[], 0, 0, []⟩

/-! ## Refinement -/

theorem bucket_of {L : List (List α)} {i : Nat} (h : i < L.length) : L[i]? = some (bucket L i) := by
  simp [bucket, List.getElem?_eq_getElem h]

theorem exec_ok {W K : Nat} (hW : W = 32 ∨ W = 64) (hK : K < W) (dflt : α) {m : Map α} {L : List (List α)}
    {lost : Nat} (hR : Rel lo K m ⟨L, lost⟩) (op : Op α) (hp : op.Pre W L)
    (hb : m.data.length + op.cost K L ≤ 2 ^ 32) :
    (op.throws K L = true ∧ op.exec W K dflt m = .error .exn) ∨
    (op.throws K L = false ∧ ∃ m', op.exec W K dflt m = .ok m' ∧ Rel lo K m' ⟨op.lists L, op.lost L lost⟩ ∧
      m'.data.length ≤ m.data.length + op.cost K L) := by
  have hlen : m.index.length = L.length := hR.inv.len
  have hpow : 0 < 2 ^ K := Nat.pow_pos (by omega)
  have nothrow : op.needs L = 0 → op.throws K L = false := by
    intro h; simp [Op.throws, h]
  have fromPost : ∀ {i : Nat} {xs' : List α} {c : Nat} {r : Res (Map α)},
      Post (lo := lo) (K := K) m ⟨L, lost⟩ i xs' c r → ∃ m', r = .ok m' ∧ Rel lo K m' ⟨L.set i xs', lost⟩ ∧
        m'.data.length ≤ m.data.length + c := fun h => h
  have hens : ∀ k, L.length ≤ k → k + 1 < 2 ^ 32 → Rel lo K (m.resizeIndex (k + 1)) ⟨ensure L k, lost⟩ := by
    intro k h1 h2
    exact resizeIndex_ok hR h2 (by omega)
  have hens2 : ∀ k, k < L.length → ensure L k = L := by
    intro k h
    simp [ensure, show k + 1 - L.length = 0 by omega]
  have hmodW : ∀ k, k + 1 < 2 ^ 32 → (k + 1) % 2 ^ W = k + 1 := by
    intro k h
    refine Nat.mod_eq_of_lt (Nat.lt_of_lt_of_le h (Nat.pow_le_pow_right (by omega) (by omega)))
  cases op with
  | index k =>
    refine Or.inr ⟨nothrow rfl, _, rfl, ?_, ?_⟩
    · simp only [Op.lists, Op.lost, Map.touch]
      by_cases h : m.index.length ≤ k
      · rw [if_pos h, hmodW k hp]; exact hens k (by omega) hp
      · rw [if_neg h, hens2 k (by omega)]; exact hR
    · simp only [Map.touch]; split <;> simp [Map.resizeIndex]
  | getOrCreate k =>
    have hk : k + 1 < 2 ^ 32 := hp
    have hW2 : 2 ^ 32 ≤ 2 ^ W := Nat.pow_le_pow_right (by omega) (by omega)
    have e : decide (k ≠ 2 ^ W - 1) = true := decide_eq_true (by omega)
    simp only [Op.exec, Map.getOrCreate, e, verify_true, bind, Except.bind, pure, Except.pure]
    refine Or.inr ⟨nothrow rfl, ?_⟩
    simp only [Op.lists, Op.lost]
    by_cases h : m.index.length ≤ k + 1
    · rw [if_pos h]
      refine ⟨_, rfl, ?_, by simp [Map.resizeIndex]⟩
      exact resizeIndex_ok hR hk h
    · rw [if_neg h, hens2 k (by omega)]
      exact ⟨_, rfl, hR, by omega⟩
  | emplaceBucket =>
    have hk : L.length + 1 < 2 ^ 32 := hp
    refine Or.inr ⟨nothrow rfl, _, rfl, ?_, ?_⟩
    · simp only [Op.lists, Op.lost, Map.touch]
      rw [if_pos (Nat.le_refl _), hlen, hmodW _ hk]
      have := hens L.length (Nat.le_refl _) hk
      rw [ensure, Nat.add_sub_cancel_left] at this
      exact this
    · simp only [Map.touch]; split <;> simp [Map.resizeIndex]
  | push i v =>
    have hL := bucket_of (show i < L.length from hp)
    rcases push_ok hW hK dflt hR hL v with ⟨h1, h2⟩ | ⟨h1, h2⟩
    · exact Or.inl ⟨decide_eq_true (by simp only [Op.needs]; omega), h2⟩
    · have ht : (Op.push i v).throws K L = false := decide_eq_false (by simp only [Op.needs]; omega)
      refine Or.inr ⟨ht, ?_⟩
      simp only [Op.cost, ht]
      exact fromPost h2
  | insert i pos v =>
    have hL := bucket_of hp.1
    rcases insert_ok hW hK dflt hR hL hp.2 v with ⟨h1, h2⟩ | ⟨h1, h2⟩
    · exact Or.inl ⟨decide_eq_true (by simp only [Op.needs]; omega), h2⟩
    · have ht : (Op.insert i pos v).throws K L = false := decide_eq_false (by simp only [Op.needs]; omega)
      refine Or.inr ⟨ht, ?_⟩
      simp only [Op.cost, ht]
      exact fromPost h2
  | reserve i n =>
    have hL := bucket_of hp.1
    obtain ⟨x, hi, hix, hx⟩ := hR.inv.ix hL
    rcases reserve_ok hW hK dflt hR.inv hi hL hp.2 with ⟨h1, h2⟩ | ⟨h1, m', y, h2, h3, h4, h5, h6, h7⟩
    · exact Or.inl ⟨decide_eq_true (by simp only [Op.needs]; omega), h2⟩
    · have ht : (Op.reserve i n : Op α).throws K L = false := decide_eq_false (by simp only [Op.needs]; omega)
      refine Or.inr ⟨ht, m', h2, ⟨h3, by rw [h6]; exact hR.count⟩, ?_⟩
      simp only [Op.cost, ht, Bool.false_eq_true, if_false]
      split at h7 <;> omega
  | resize i n v =>
    have hL := bucket_of hp.1
    by_cases hlt : 2 ^ K < n
    · refine Or.inl ⟨decide_eq_true (by simpa only [Op.needs] using hlt), ?_⟩
      obtain ⟨x, hi, hix, hx⟩ := hR.inv.ix hL
      rcases reserve_ok hW hK dflt hR.inv hi hL hp.2 with ⟨h1, h2⟩ | ⟨h1, _⟩
      · simp only [Op.exec, Map.resize, hix, bind, Except.bind, h2]
      · omega
    · have ht : (Op.resize i n v).throws K L = false := decide_eq_false (by simp only [Op.needs]; omega)
      simp only [Op.cost, ht, Bool.false_eq_true, if_false] at hb
      rcases resize_ok hW hK dflt hR hL hp.2 v hb with ⟨h1, _⟩ | ⟨_, h2⟩
      · omega
      · refine Or.inr ⟨ht, ?_⟩
        simp only [Op.cost, ht]
        exact fromPost h2
  | popBack i =>
    have hL := bucket_of (show i < L.length from hp)
    obtain ⟨x, hi, hix, hx⟩ := hR.inv.ix hL
    have hs := hx.size
    refine Or.inr ⟨nothrow rfl, ?_⟩
    simp only [Op.exec, Map.popBack, hix, bind, Except.bind]
    by_cases h0 : x.s = 0
    · rw [if_pos h0]
      have he : bucket L i = [] := List.eq_nil_of_length_eq_zero (by omega)
      refine ⟨m, rfl, ?_, by omega⟩
      simp only [Op.lists, Op.lost, he, List.dropLast_nil]
      rw [he] at hL
      rw [set_self hL]; exact hR
    · rw [if_neg h0]
      have hcl := hx.cap_le; have hc := hx.cap
      have hlt := pow_succ_lt hW hK
      have hb' : m.data.length + (if (bucket L i).length < x.s - 1 then 2 * (x.s - 1) else 0) ≤ 2 ^ 32 := by
        rw [if_neg (by omega)]; omega
      rcases resize_ok hW hK dflt hR hL (n := x.s - 1) (by omega) dflt hb' with ⟨h1, _⟩ | ⟨_, h2⟩
      · omega
      · rw [if_neg (by omega)] at h2
        obtain ⟨m', h3, h4, h5⟩ := fromPost h2
        refine ⟨m', h3, ?_, by omega⟩
        have e : (bucket L i).take (x.s - 1) ++ List.replicate (x.s - 1 - (bucket L i).length) dflt =
            (bucket L i).dropLast := by
          rw [show x.s - 1 - (bucket L i).length = 0 by omega, hs, List.dropLast_eq_take]; simp
        rw [e] at h4
        exact h4
  | clearBucket i =>
    obtain ⟨m', h1, h2, h3⟩ := fromPost (clearBucket_ok hR (bucket_of (show i < L.length from hp)))
    exact Or.inr ⟨nothrow rfl, m', h1, h2, by omega⟩
  | erase i pos =>
    obtain ⟨m', h1, h2, h3⟩ := fromPost (erase_ok hR (bucket_of hp.1) hp.2)
    exact Or.inr ⟨nothrow rfl, m', h1, h2, by omega⟩
  | eraseRange i p q =>
    obtain ⟨m', h1, h2, h3⟩ := fromPost (eraseRange_ok hR (bucket_of hp.1) hp.2.1 hp.2.2)
    exact Or.inr ⟨nothrow rfl, m', h1, h2, by omega⟩
  | write i j v =>
    obtain ⟨m', h1, h2, h3⟩ := fromPost (write_ok hR (bucket_of hp.1) hp.2 v)
    exact Or.inr ⟨nothrow rfl, m', h1, h2, by omega⟩
  | eraseKey k =>
    refine Or.inr ⟨nothrow rfl, ?_⟩
    by_cases h : k < L.length
    · obtain ⟨m', h1, h2, h3⟩ := eraseKey_ok hK hR (bucket_of h)
      exact ⟨m', h1, h2, by omega⟩
    · refine ⟨m, eraseKey_out (by omega), ?_, by omega⟩
      have e1 : bucket L k = [] := by simp [bucket, List.getElem?_eq_none (show L.length ≤ k by omega)]
      have e2 : L.set k [] = L := List.set_eq_of_length_le (by omega)
      simp only [Op.lists, Op.lost, e1, e2]
      exact hR
  | clear => exact Or.inr ⟨nothrow rfl, _, rfl, clear_ok hR, by simp [Map.clear]⟩

theorem cost_mono (K : Nat) (ops : List (Op α)) : ∀ S : SpecState α, S.cost ≤ (ops.foldl (Op.spec K) S).cost := by
  induction ops with
  | nil => intro S; exact Nat.le_refl _
  | cons op ops ih =>
    intro S
    refine Nat.le_trans ?_ (ih _)
    unfold Op.spec
    split
    · exact Nat.le_refl _
    · exact Nat.le_add_right _ _

theorem run_ok {W K : Nat} (hW : W = 32 ∨ W = 64) (hK : K < W) (dflt : α) (ops : List (Op α)) :
    ∀ {m : Map α} {S : SpecState α}, Rel lo K m ⟨S.lists, S.lost⟩ → m.data.length ≤ S.cost → Allowed W K ops S →
      (ops.foldl (Op.spec K) S).cost ≤ 2 ^ 32 →
      ∃ m' t, run W K dflt ops m = .ok (m', t) ∧ S.thrown ++ t = (ops.foldl (Op.spec K) S).thrown ∧
        Rel lo K m' ⟨(ops.foldl (Op.spec K) S).lists, (ops.foldl (Op.spec K) S).lost⟩ ∧
        m'.data.length ≤ (ops.foldl (Op.spec K) S).cost := by
  induction ops with
  | nil => intro m S hR hd _ _; exact ⟨m, [], rfl, by simp, hR, hd⟩
  | cons op ops ih =>
    intro m S hR hd hA hc
    obtain ⟨hp, hA⟩ := hA
    have hmono := cost_mono K ops (op.spec K S)
    have hb : m.data.length + op.cost K S.lists ≤ 2 ^ 32 := by
      simp only [List.foldl_cons] at hc
      cases ht : op.throws K S.lists with
      | true => simp only [Op.cost, ht, if_true]; simp only [Op.spec, ht, if_true] at hmono hc; omega
      | false => simp only [Op.spec, ht, Bool.false_eq_true, if_false] at hmono hc; omega
    simp only [List.foldl_cons] at hc ⊢
    rcases exec_ok hW hK dflt hR op hp hb with ⟨ht, he⟩ | ⟨ht, m1, he, hR1, hd1⟩
    · have hS : op.spec K S = { S with thrown := S.thrown ++ [true] } := by simp [Op.spec, ht]
      rw [hS] at hA hc ⊢
      obtain ⟨m', t, h1, h2, h3, h4⟩ := ih (m := m) (S := { S with thrown := S.thrown ++ [true] }) hR hd hA hc
      refine ⟨m', true :: t, ?_, ?_, h3, h4⟩
      · simp only [run, he, h1, Except.map]
      · rw [← h2]; simp
    · have hS : op.spec K S = ⟨op.lists S.lists, op.lost S.lists S.lost, S.cost + op.cost K S.lists,
          S.thrown ++ [false]⟩ := by simp [Op.spec, ht]
      rw [hS] at hA hc ⊢
      obtain ⟨m', t, h1, h2, h3, h4⟩ := ih (m := m1) (S := ⟨op.lists S.lists, op.lost S.lists S.lost,
        S.cost + op.cost K S.lists, S.thrown ++ [false]⟩) hR1 (by simp only; omega) hA hc
      refine ⟨m', false :: t, ?_, ?_, h3, h4⟩
      · simp only [run, he, h1, Except.map]
      · rw [← h2]; simp

/-! ## Observations -/

theorem Inv.contents {K : Nat} {m : Map α} {L : List (List α)} (h : Inv lo K m L) {i : Nat} {xs : List α}
    (hL : L[i]? = some xs) : m.contents i = .ok xs := by
  obtain ⟨x, hi, hix, hx⟩ := h.ix hL
  have hs := hx.slice (p := 0) (n := xs.length) (by omega)
  rw [Nat.add_zero, List.drop_zero, List.take_length, ← hx.size] at hs
  simp only [Map.contents, hix, bind, Except.bind]
  exact hs

/-- All observers see the list of lists. -/
theorem Inv.observe {K : Nat} {m : Map α} {L : List (List α)} (hI : Inv lo K m L) :
    m.index.length = L.length ∧ m.iterate = .ok L ∧
    (∀ i, m.at i = match L[i]? with
      | some xs => .ok xs
      | none => .error .exn) ∧
    (∀ (i j : Nat) (xs : List α), L[i]? = some xs → m.bucketAt i j = match xs[j]? with
      | some v => .ok v
      | none => .error .exn) := by
  have hat : ∀ i, m.at i = match L[i]? with
        | some xs => .ok xs
        | none => .error .exn := by
    intro i
    cases hL : L[i]? with
    | some xs =>
      have : i < m.index.length := by rw [hI.len]; exact (List.getElem?_eq_some_iff.1 hL).1
      simp only [Map.at, decide_eq_true this, verify_true, bind, Except.bind]
      exact hI.contents hL
    | none =>
      have : ¬ i < m.index.length := by rw [hI.len]; exact Nat.not_lt.2 (List.getElem?_eq_none_iff.1 hL)
      simp only [Map.at, decide_eq_false this, verify_false, bind, Except.bind]
  refine ⟨hI.len, ?_, hat, ?_⟩
  · unfold Map.iterate
    rw [Multi.VecVec.mapM_ok (g := fun i => bucket L i)]
    · congr 1
      apply List.ext_getElem?
      intro i
      rw [List.getElem?_map]
      by_cases hi : i < L.length
      · rw [List.getElem?_range (by rw [hI.len]; exact hi), bucket_of hi]; rfl
      · rw [List.getElem?_eq_none (by simp; rw [hI.len]; omega), List.getElem?_eq_none (by omega)]; rfl
    · intro i hi
      rw [List.mem_range, hI.len] at hi
      rw [hat, bucket_of hi]
  · intro i j xs hL
    obtain ⟨x, hi, hix, hx⟩ := hI.ix hL
    simp only [Map.bucketAt, hix, bind, Except.bind]
    have hs := hx.size
    cases hj : xs[j]? with
    | some v =>
      have hjl := (List.getElem?_eq_some_iff.1 hj).1
      simp only [decide_eq_true (show j < x.s by omega), verify_true, hx.get j hjl, hj]
    | none =>
      have hjl := List.getElem?_eq_none_iff.1 hj
      simp only [decide_eq_false (show ¬ j < x.s by omega), verify_false]

/-- C18: any history of operations within the storage limit observes the same as on a list of lists: which
operations throw, the number of buckets, `at` (which throws exactly outside the range), `bucket.at` and a full
iteration. -/
theorem C18_history {W K : Nat} (hW : W = 32 ∨ W = 64) (hK : K < W) (dflt : α) (ops : List (Op α))
    (hA : Allowed W K ops start) (hc : (specRun K ops).cost ≤ 2 ^ 32) :
    ∃ m, run W K dflt ops (Map.empty K) = .ok (m, (specRun K ops).thrown) ∧
      m.index.length = (specRun K ops).lists.length ∧
      m.iterate = .ok (specRun K ops).lists ∧
      (∀ i, m.at i = match (specRun K ops).lists[i]? with
        | some xs => .ok xs
        | none => .error .exn) ∧
      (∀ (i j : Nat) (xs : List α), (specRun K ops).lists[i]? = some xs → m.bucketAt i j = match xs[j]? with
        | some v => .ok v
        | none => .error .exn) := by
  obtain ⟨m, t, h1, h2, h3, h4⟩ := run_ok hW hK dflt ops (m := Map.empty K) (S := start) (empty_rel K (Nat.le_refl 1))
    (by simp [Map.empty]) hA hc
  have ht : t = (specRun K ops).thrown := by simpa [start, specRun] using h2
  exact ⟨m, by rw [← ht]; exact h1, h3.inv.observe⟩

theorem history_rel {W K : Nat} (hW : W = 32 ∨ W = 64) (hK : K < W) (dflt : α) {ops : List (Op α)}
    (hA : Allowed W K ops start) (hc : (specRun K ops).cost ≤ 2 ^ 32) {m : Map α} {t : List Bool}
    (hr : run W K dflt ops (Map.empty K) = .ok (m, t)) :
    Rel 1 K m ⟨(specRun K ops).lists, (specRun K ops).lost⟩ ∧ m.data.length ≤ (specRun K ops).cost := by
  obtain ⟨m', t', h1, _, h3, h4⟩ := run_ok hW hK dflt ops (m := Map.empty K) (S := start) (empty_rel K (Nat.le_refl 1))
    (by simp [Map.empty]) hA hc
  rw [hr] at h1
  injection h1 with h1
  injection h1 with h1 _
  subst h1
  exact ⟨h3, h4⟩

/-- The bucket an operation works on. -/
def Op.target : Op α → Option Nat
  | .push i _ | .insert i _ _ | .reserve i _ | .resize i _ _ | .popBack i | .clearBucket i | .erase i _
  | .eraseRange i _ _ | .write i _ _ | .eraseKey i => some i
  | _ => none

/-- C18: an operation on one bucket, thrown or not, leaves every other bucket as it was, whatever history led to
the state. -/
theorem C18_other_buckets {W K : Nat} (hW : W = 32 ∨ W = 64) (hK : K < W) (dflt : α) (ops : List (Op α))
    (op : Op α) {i : Nat} (ht : op.target = some i) (hA : Allowed W K (ops ++ [op]) start)
    (hc : (specRun K (ops ++ [op])).cost ≤ 2 ^ 32) :
    ∃ m m' t t', run W K dflt ops (Map.empty K) = .ok (m, t) ∧
      run W K dflt (ops ++ [op]) (Map.empty K) = .ok (m', t') ∧ ∀ j, j ≠ i → m'.at j = m.at j := by
  have hsplit : ∀ (l : List (Op α)) (S : SpecState α), Allowed W K (l ++ [op]) S → Allowed W K l S := by
    intro l
    induction l with
    | nil => intro S _; trivial
    | cons a l ih => intro S h; exact ⟨h.1, ih _ h.2⟩
  have hfold : specRun K (ops ++ [op]) = op.spec K (specRun K ops) := by simp [specRun]
  have hc1 : (specRun K ops).cost ≤ 2 ^ 32 := by
    refine Nat.le_trans (cost_mono K [op] _) ?_
    rw [List.foldl_cons, List.foldl_nil, ← hfold]; exact hc
  obtain ⟨m, h1, _, _, h2, _⟩ := C18_history hW hK dflt ops (hsplit ops _ hA) hc1
  obtain ⟨m', h3, _, _, h4, _⟩ := C18_history hW hK dflt (ops ++ [op]) hA hc
  refine ⟨m, m', _, _, h1, h3, ?_⟩
  intro j hj
  have : (specRun K (ops ++ [op])).lists[j]? = (specRun K ops).lists[j]? := by
    rw [hfold, Op.spec]
    split
    · rfl
    · have hij : ¬ i = j := fun h => hj h.symm
      cases op <;> simp only [Op.target, Option.some.injEq, reduceCtorEq] at ht <;> try subst ht
      all_goals simp only [Op.lists]
      all_goals rw [List.getElem?_set, if_neg hij]
  rw [h2, h4, this]

/-- C18, violated for the largest keys: `operator[]` with key `2^32 - 1` (any key `k` with `k + 1` a multiple of
`2^32`) resizes the index to zero, so every bucket is lost and the returned bucket does not exist. -/
theorem C18_max_key_violated {W : Nat} (hW : W = 32 ∨ W = 64) (m : Map α) (hm : m.index.length ≤ 2 ^ 32 - 1) :
    (m.touch W (2 ^ 32 - 1)).index = [] ∧ (m.touch W (2 ^ 32 - 1)).contents (2 ^ 32 - 1) = .error .ub := by
  have h1 : (2 ^ 32 - 1 + 1) % 2 ^ W % 2 ^ 32 = 0 := by
    rcases hW with rfl | rfl <;> rfl
  have h2 : (m.touch W (2 ^ 32 - 1)).index = [] := by
    rw [Map.touch, if_pos hm, Map.resizeIndex, h1]
    simp
  refine ⟨h2, ?_⟩
  simp only [Map.contents, Map.ix, h2, List.getElem?_nil, bind, Except.bind]

/-- C18, violated: with 64-bit keys `get_or_create` accepts key `2^32 - 1` and drops all buckets as well. -/
theorem C18_get_or_create_violated (m : Map α) (hm : m.index.length ≤ 2 ^ 32) :
    (m.getOrCreate 64 (2 ^ 32 - 1)).map (·.index) = .ok [] := by
  have e : decide ((2 ^ 32 - 1 : Nat) ≠ 2 ^ 64 - 1) = true := by decide
  have h1 : (2 ^ 32 - 1 + 1) % 2 ^ 32 = 0 := rfl
  simp only [Map.getOrCreate, e, verify_true, bind, Except.bind]
  rw [if_pos (show m.index.length ≤ 2 ^ 32 - 1 + 1 from hm)]
  simp only [pure, Except.pure, Except.map, Map.resizeIndex, h1]
  simp

/-! ## C19: storage -/

/-- C19: after any history the live and free regions lie inside the storage, are pairwise disjoint and together
cover it: each position belongs to exactly one region.  A bucket never exceeds its region. -/
theorem C19_partition {W K : Nat} (hW : W = 32 ∨ W = 64) (hK : K < W) (dflt : α) {ops : List (Op α)}
    (hA : Allowed W K ops start) (hc : (specRun K ops).cost ≤ 2 ^ 32) {m : Map α} {t : List Bool}
    (hr : run W K dflt ops (Map.empty K) = .ok (m, t)) :
    (∀ x ∈ m.index ++ m.free.flatten, x.b + x.c ≤ m.data.length ∧ x.s ≤ x.c ∨ x ∈ m.free.flatten ∧
      x.b + x.c ≤ m.data.length) ∧
    (m.index ++ m.free.flatten).Pairwise (fun x y => ∀ p, ¬ ((x.b ≤ p ∧ p < x.b + x.c) ∧ (y.b ≤ p ∧ p < y.b + y.c))) ∧
    (∀ p, p < m.data.length → (m.index ++ m.free.flatten).countP (fun x => decide (x.b ≤ p ∧ p < x.b + x.c)) = 1) := by
  obtain ⟨hR, _⟩ := history_rel hW hK dflt hA hc hr
  have hI := hR.inv
  have hb : ∀ x ∈ m.index ++ m.free.flatten, x.b + x.c ≤ m.data.length ∧ x.s ≤ x.c ∨ x ∈ m.free.flatten ∧
      x.b + x.c ≤ m.data.length := by
    intro x hx
    rw [List.mem_append] at hx
    rcases hx with hx | hx
    · left
      obtain ⟨j, hj, hjx⟩ := List.getElem_of_mem hx
      have hjL : j < (specRun K ops).lists.length := by rw [← hI.len]; exact hj
      have h := hI.holds j x _ (by rw [List.getElem?_eq_getElem hj, hjx]) (List.getElem?_eq_getElem hjL)
      exact ⟨h.bound, by rw [h.size]; exact h.cap⟩
    · right
      refine ⟨hx, ?_⟩
      obtain ⟨fl, hfl, hxf⟩ := List.mem_flatten.1 hx
      obtain ⟨j, hj, hjx⟩ := List.getElem_of_mem hfl
      exact (hI.free j fl x (by rw [List.getElem?_eq_getElem hj, hjx]) hxf).2
  have hcov : ∀ p, p < m.data.length → (m.index ++ m.free.flatten).countP (has p) = 1 := by
    intro p hp
    rw [List.countP_append]
    exact Nat.le_antisymm (hI.cov p hp).2 (hI.cov p hp).1
  refine ⟨hb, ?_, hcov⟩
  rw [List.pairwise_iff_getElem]
  intro i j hi hj hij p ⟨h1, h2⟩
  have hp : p < m.data.length := by
    rcases hb _ (List.getElem_mem hi) with h | h <;> omega
  have := countP_two (p := p) (Nat.ne_of_lt hij) (List.getElem?_eq_getElem hi) (List.getElem?_eq_getElem hj)
    (has_iff.2 h1) (has_iff.2 h2)
  rw [hcov p hp] at this
  omega

/-- C19: the storage never exceeds twice the sum of the bucket sizes requested when buckets had to grow. -/
theorem C19_storage_bound {W K : Nat} (hW : W = 32 ∨ W = 64) (hK : K < W) (dflt : α) {ops : List (Op α)}
    (hA : Allowed W K ops start) (hc : (specRun K ops).cost ≤ 2 ^ 32) {m : Map α} {t : List Bool}
    (hr : run W K dflt ops (Map.empty K) = .ok (m, t)) : m.data.length ≤ (specRun K ops).cost :=
  (history_rel hW hK dflt hA hc hr).2

/-! ## C20: element_count() -/

/-- mutable_fws_multimap.h:440 `element_count()`.  `element_count_` is a `W`-bit counter; `Map.count` is its
value without wrap-around (it is never decremented below zero), so the member is `count` modulo `2^W`. -/
def Map.elementCount (W : Nat) (m : Map α) : Nat := m.count % 2 ^ W

/-- C20: `element_count()` is the number of elements plus the elements dropped by `erase(key)` since the last
`clear()`. -/
theorem C20_element_count_exact {W K : Nat} (hW : W = 32 ∨ W = 64) (hK : K < W) (dflt : α) {ops : List (Op α)}
    (hA : Allowed W K ops start) (hc : (specRun K ops).cost ≤ 2 ^ 32) {m : Map α} {t : List Bool}
    (hr : run W K dflt ops (Map.empty K) = .ok (m, t)) :
    m.elementCount W = (((specRun K ops).lists.map List.length).sum + (specRun K ops).lost) % 2 ^ W := by
  rw [Map.elementCount, (history_rel hW hK dflt hA hc hr).1.count]
  rfl

/-- C20 holds for histories in which no elements were dropped by `erase(key)` (missing: the histories with such
an erase, for which `C20_erase_key_violated` shows that it fails). -/
theorem C20_element_count_partial {W K : Nat} (hW : W = 32 ∨ W = 64) (hK : K < W) (dflt : α) {ops : List (Op α)}
    (hA : Allowed W K ops start) (hc : (specRun K ops).cost ≤ 2 ^ 32) (hl : (specRun K ops).lost = 0)
    {m : Map α} {t : List Bool} (hr : run W K dflt ops (Map.empty K) = .ok (m, t)) :
    m.elementCount W = ((specRun K ops).lists.map List.length).sum % 2 ^ W := by
  rw [C20_element_count_exact hW hK dflt hA hc hr, hl, Nat.add_zero]

/-- C20, violated: `erase(key)` removes the elements of the bucket but does not change `element_count()`. -/
theorem C20_erase_key_violated {W K : Nat} (hK : K < W) {m : Map α} {A : Abs α} (hR : Rel lo K m A) {k : Nat}
    {xs : List α} (hL : A.lists[k]? = some xs) :
    ∃ m', m.eraseKey W k = .ok m' ∧ m'.contents k = .ok [] ∧ m'.elementCount W = m.elementCount W := by
  obtain ⟨m', h1, h2, _⟩ := eraseKey_ok hK hR hL
  have hk := (List.getElem?_eq_some_iff.1 hL).1
  refine ⟨m', h1, h2.inv.contents (by simp [List.getElem?_set, hk]), ?_⟩
  have h3 := total_set hL []
  have h4 := hR.count
  have h5 := h2.count
  simp only [List.length_nil, Nat.add_zero] at h3
  simp only at h5
  rw [Map.elementCount, Map.elementCount, show m'.count = m.count by omega]

/-! ## C52: bucket iterators and the iterator returned by erase -/

/-- mutable_fws_multimap.h:309-312 `operator++`. -/
def iterInc {W : Nat} (i : BitVec W) : BitVec W := i + 1#W

/-- mutable_fws_multimap.h:320-323 `operator--` (it increments). -/
def iterDec {W : Nat} (i : BitVec W) : BitVec W := i + 1#W

/-- mutable_fws_multimap.h:299-302, 331-333 `operator+=`, `operator+`. -/
def iterAdd {W : Nat} (i : BitVec W) (n : Int) : BitVec W := i + BitVec.ofInt W n

/-- mutable_fws_multimap.h:304-307, 335-337 `operator-=`, `operator-`. -/
def iterSub {W : Nat} (i : BitVec W) (n : Int) : BitVec W := i - BitVec.ofInt W n

/-- mutable_fws_multimap.h:286-289 `operator*` followed by reading the bucket. -/
def Map.deref {W : Nat} (m : Map α) (i : BitVec W) : Res (List α) := m.at i.toNat

/-- C52 for `++`, `+` and `-`: moving forward and back returns to the same bucket (missing: `--`, see
`C52_decrement_violated`). -/
theorem C52_iterator_moves_partial {W : Nat} (i : BitVec W) (n : Int) :
    iterSub (iterAdd i n) n = i ∧ iterAdd (iterSub i n) n = i ∧ iterSub (iterInc i) 1 = i := by
  refine ⟨?_, ?_, ?_⟩
  · exact BitVec.add_sub_cancel _ _
  · exact BitVec.sub_add_cancel _ _
  · have : BitVec.ofInt W 1 = 1#W := by
      apply BitVec.eq_of_toInt_eq; simp
    rw [iterSub, iterInc, this]
    exact BitVec.add_sub_cancel _ _

/-- C52, violated: `--` moves forward.  Decrementing `end()` of any map and reading the bucket throws instead of
reading the last bucket. -/
theorem C52_decrement_violated {W : Nat} (hW : W = 32 ∨ W = 64) (m : Map α)
    (hm : m.index.length + 1 < 2 ^ W) :
    (∀ i : BitVec W, iterDec i ≠ i - 1#W) ∧
    m.deref (iterDec (BitVec.ofNat W m.index.length)) = .error .exn := by
  constructor
  · intro i h
    unfold iterDec at h
    rcases hW with rfl | rfl <;> bv_omega
  · have : (iterDec (BitVec.ofNat W m.index.length)).toNat = m.index.length + 1 := by
      rw [iterDec, BitVec.toNat_add, BitVec.toNat_ofNat, BitVec.toNat_ofNat,
        Nat.mod_eq_of_lt (show m.index.length < 2 ^ W by omega), Nat.mod_eq_of_lt (show 1 < 2 ^ W by omega),
        Nat.mod_eq_of_lt hm]
    simp only [Map.deref, this, Map.at, decide_eq_false (show ¬ m.index.length + 1 < m.index.length by omega),
      verify_false, bind, Except.bind]

/-- mutable_fws_multimap.h:216: `erase(pos)` returns `end()`, as an offset from `begin()`. -/
def Map.eraseReturn (m : Map α) (i pos : Nat) : Res Nat := do
  let m ← m.erase i pos
  let x ← m.ix i
  return x.s

/-- mutable_fws_multimap.h:230: `erase(first, last)` returns `end()`. -/
def Map.eraseRangeReturn (m : Map α) (i p q : Nat) : Res Nat := do
  let m ← m.eraseRange i p q
  let x ← m.ix i
  return x.s

/-- C52, violated: the iterator returned by `erase` follows the removed element only if that was the last one. -/
theorem C52_erase_return_violated {K : Nat} {m : Map α} {A : Abs α} (hR : Rel lo K m A) {i pos : Nat} {xs : List α}
    (hL : A.lists[i]? = some xs) (hpos : pos < xs.length) :
    ∃ r, m.eraseReturn i pos = .ok r ∧ (r = pos ↔ pos + 1 = xs.length) := by
  obtain ⟨m', h1, h2, _⟩ := erase_ok hR hL hpos
  have hi := (List.getElem?_eq_some_iff.1 hL).1
  obtain ⟨x, _, h4, h5⟩ := h2.inv.ix (i := i) (xs := xs.eraseIdx pos) (by simp [List.getElem?_set, hi])
  refine ⟨x.s, by simp only [Map.eraseReturn, h1, h4, bind, Except.bind, pure, Except.pure], ?_⟩
  rw [h5.size, List.length_eraseIdx, if_pos hpos]
  omega

/-- C52, violated: the iterator returned by `erase(first, last)` follows the removed range only if the range
reached the end of the bucket. -/
theorem C52_erase_range_return_violated {K : Nat} {m : Map α} {A : Abs α} (hR : Rel lo K m A) {i p q : Nat}
    {xs : List α} (hL : A.lists[i]? = some xs) (hpq : p ≤ q) (hq : q ≤ xs.length) :
    ∃ r, m.eraseRangeReturn i p q = .ok r ∧ (r = p ↔ q = xs.length) := by
  obtain ⟨m', h1, h2, _⟩ := eraseRange_ok hR hL hpq hq
  have hi := (List.getElem?_eq_some_iff.1 hL).1
  obtain ⟨x, _, h4, h5⟩ := h2.inv.ix (i := i) (xs := xs.take p ++ xs.drop q) (by simp [List.getElem?_set, hi])
  refine ⟨x.s, by simp only [Map.eraseRangeReturn, h1, h4, bind, Except.bind, pure, Except.pure], ?_⟩
  rw [h5.size, List.length_append, List.length_take, List.length_drop]
  omega

/-! ## Concrete histories -/

/-- Grows bucket 1 past bucket 0, reuses freed storage, erases and hits the bucket limit (`K = 2`). -/
def demo : List (Op Nat) :=
  [.index 1, .push 0 10, .push 1 20, .push 1 21, .push 0 11, .push 1 22, .insert 0 1 15, .erase 1 0, .push 1 23,
   .eraseKey 0, .emplaceBucket, .push 2 30, .resize 2 4 9, .push 2 31, .eraseRange 2 1 3, .popBack 1,
   .write 2 1 77, .getOrCreate 3, .reserve 3 5, .clearBucket 1, .push 1 5]

example : Allowed 32 2 demo start := by
  simp [demo, Allowed, start, Op.Pre, Op.spec, Op.throws, Op.needs, Op.lists, Op.lost, bucket, ensure]

example : (specRun 2 demo).lists = [[], [5], [30, 77], []] ∧ (specRun 2 demo).lost = 3 ∧
    (specRun 2 demo).thrown.count true = 2 ∧ (specRun 2 demo).cost ≤ 2 ^ 32 := by decide +kernel

example : ((run 32 2 0 demo (Map.empty 2)).map fun r => (r.1.iterate, r.2.count true, r.1.elementCount 32)) =
    .ok (.ok [[], [5], [30, 77], []], 2, 6) := by decide +kernel

/-- `C18_other_buckets` and the bound apply to it. -/
example : (Op.push 1 5 : Op Nat).target = some 1 := rfl

/-- `C20_erase_key_violated` and the erase theorems apply to reachable states, e.g. one bucket with two elements. -/
example : ∃ m : Map Nat, Rel 1 2 m ⟨[[7, 8]], 0⟩ := by
  obtain ⟨m, t, h1, _, h3, _⟩ := run_ok (W := 32) (K := 2) (Or.inl rfl) (by decide) 0
    [.index 0, .push 0 7, .push 0 8] (m := Map.empty 2) (S := start) (empty_rel 2 (Nat.le_refl 1)) (by simp [Map.empty])
    (by simp [Allowed, start, Op.Pre, Op.spec, Op.throws, Op.needs, Op.lists, Op.lost, bucket, ensure])
    (by decide +kernel)
  exact ⟨m, h3⟩

end Cista.MM

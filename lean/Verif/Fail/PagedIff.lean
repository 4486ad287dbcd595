import Verif.Fail.Paged

/-!
# C135 — which calls of a `paged_vecvec` throw when memory runs out
-/
namespace Cista.Paged

variable {c : Cfg}

theorem ok_inv {α β : Type} {x : Res α} {f : α → Res β} {b : β} (h : (x >>= f) = .ok b) : ∃ a, x = .ok a ∧ f a = .ok b := by
  cases x with
  | error e => cases h
  | ok a => exact ⟨a, rfl, h⟩

theorem store_len {d d' : List Byte} {pos : Nat} {bs : List Byte} (h : store d pos bs = .ok d') : d'.length = d.length := by
  unfold store at h
  by_cases hl : pos + bs.length ≤ d.length
  · rw [decide_eq_true hl, require_true, ok_bind] at h
    injection h with h
    subst h
    exact MM.blit_length _ _ _ hl
  · rw [decide_eq_false hl] at h
    cases h

theorem copyIn_len {p p' : Paged} {q : Page} {bs : List Byte} (h : p.copyIn c q bs = .ok p') : p'.data.length = p.data.length := by
  unfold Paged.copyIn at h
  split at h
  · injection h with h; rw [h]
  · obtain ⟨d, h1, h⟩ := ok_inv h
    injection h with h
    rw [← h]
    exact store_len h1

theorem copy_len {p p' : Paged} {q r : Page} (h : p.copy c q r = .ok p') : p'.data.length = p.data.length := by
  unfold Paged.copy at h
  dsimp only at h
  split at h
  · injection h with h; rw [h]
  · obtain ⟨_, _, h⟩ := ok_inv h
    obtain ⟨_, _, h⟩ := ok_inv h
    obtain ⟨d, h1, h⟩ := ok_inv h
    injection h with h
    rw [← h]
    exact store_len h1

theorem freePage_len {p p' : Paged} {q : Page} (h : p.freePage c q = .ok p') : p'.data.length = p.data.length := by
  unfold Paged.freePage at h
  split at h
  · injection h with h; rw [h]
  · unfold Paged.pushFree at h
    obtain ⟨_, _, h⟩ := ok_inv h
    split at h
    · cases h
    · obtain ⟨p1, h1, h⟩ := ok_inv h
      injection h with h
      rw [← h]
      unfold Paged.write at h1
      obtain ⟨d, h2, h1⟩ := ok_inv h1
      injection h1 with h1
      rw [← h1]
      exact store_len h2

theorem set_len {v v' : PV} {i j : Nat} {x : List Byte} (h : v.set c i j x = .ok v') : v'.paged.data.length = v.paged.data.length := by
  unfold PV.set at h
  obtain ⟨_, _, h⟩ := ok_inv h
  obtain ⟨_, _, h⟩ := ok_inv h
  obtain ⟨d, h1, h⟩ := ok_inv h
  injection h with h
  rw [← h]
  exact store_len h1

theorem freeAll_len : ∀ (qs : List Page) {p p' : Paged}, freeAll c qs p = .ok p' → p'.data.length = p.data.length
  | [], p, p', h => by injection h with h; rw [h]
  | q :: qs, p, p', h => by
    unfold freeAll at h
    obtain ⟨p1, h1, h⟩ := ok_inv h
    rw [freeAll_len qs h, freePage_len h1]

theorem grow_needs {v v' : PV} {i : Nat} (h : v.grow c i = .ok v') : v.needs c i = .ok (decide (v'.paged.data.length ≠ v.paged.data.length)) := by
  unfold PV.grow at h
  obtain ⟨q, hq, h⟩ := ok_inv h
  obtain ⟨⟨q', p⟩, hr, h⟩ := ok_inv h
  injection h with h
  subst h
  unfold PV.needs
  rw [hq, ok_bind]
  unfold Paged.resize at hr
  dsimp only
  split at hr
  · next hle =>
    rw [if_pos hle]
    injection hr with hr
    injection hr with _ hr
    subst hr
    simp [pure_ok]
  · next hle =>
    rw [if_neg hle]
    obtain ⟨⟨n, p1⟩, h1, hr⟩ := ok_inv hr
    obtain ⟨p2, h2, hr⟩ := ok_inv hr
    obtain ⟨p3, h3, hr⟩ := ok_inv hr
    injection hr with hr
    injection hr with _ hr
    subst hr
    rw [h1, ok_bind]
    dsimp only at h2 h3 ⊢
    rw [freePage_len h3, copy_len h2, pure_ok]
    by_cases e : p1.data.length = v.paged.data.length <;> simp [e]

theorem pushBack_needs {v v' : PV} {i : Nat} {x : List Byte} (h : v.pushBack c i x = .ok v') :
    v.needs c i = .ok (decide (v'.paged.data.length ≠ v.paged.data.length)) := by
  unfold PV.pushBack at h
  obtain ⟨v1, h1, h⟩ := ok_inv h
  obtain ⟨_, _, h⟩ := ok_inv h
  rw [set_len h]
  exact grow_needs h1

/-- **C135** While `data_` cannot grow (and the index can), exactly the calls that need more storage throw, and then nothing has
changed; every call that gets by with the storage there is succeeds. -/
theorem C135_throws_iff {v v' : PV} {op : VOp} (h : op.exec c v = .ok v') (hc : op ≠ .clear) :
    op.execF c true false v = .ok (if v'.paged.data.length = v.paged.data.length then (v', false) else (v, true)) := by
  have grows : ∀ {n : Nat} {q : Page} {p : Paged}, v.paged.create c n = .ok (q, p) →
      v.paged.createF c true n = .ok (if p.data.length = v.paged.data.length then some (q, p) else none) := by
    intro n q p e
    unfold Paged.createF
    rw [e, ok_bind]
    by_cases hl : p.data.length = v.paged.data.length <;> simp [hl, pure_ok]
  cases op with
  | emplaceBack xs =>
    simp only [VOp.exec, PV.emplaceBack] at h
    obtain ⟨⟨q, p⟩, h1, h⟩ := ok_inv h
    obtain ⟨p2, h2, h⟩ := ok_inv h
    injection h with h
    subst h
    simp only [VOp.execF, grows h1, ok_bind, copyIn_len h2]
    by_cases hl : p.data.length = v.paged.data.length
    · simp [hl, h2, ok_bind, pure_ok]
    · simp [hl, pure_ok]
  | emplaceBackEmpty =>
    simp only [VOp.exec, PV.emplaceBackEmpty] at h
    obtain ⟨⟨q, p⟩, h1, h⟩ := ok_inv h
    injection h with h
    subst h
    simp only [VOp.execF, grows h1, ok_bind]
    by_cases hl : p.data.length = v.paged.data.length <;> simp [hl, pure_ok]
  | insert k xs =>
    simp only [VOp.exec, PV.insert] at h
    obtain ⟨⟨q, p⟩, h1, h⟩ := ok_inv h
    obtain ⟨p2, h2, h⟩ := ok_inv h
    obtain ⟨u, h3, h⟩ := ok_inv h
    injection h with h
    subst h
    simp only [VOp.execF, grows h1, ok_bind, copyIn_len h2]
    by_cases hl : p.data.length = v.paged.data.length
    · simp [hl, h2, h3, ok_bind, pure_ok]
    · simp [hl, pure_ok]
  | push i x =>
    simp only [VOp.exec] at h
    simp only [VOp.execF, pushBack_needs h, ok_bind]
    by_cases hl : v'.paged.data.length = v.paged.data.length
    · simp [hl, h, ok_bind, pure_ok]
    · simp [hl, pure_ok]
  | bucketInsert i j x =>
    simp only [VOp.exec] at h
    have hn : v.needs c i = .ok (decide (v'.paged.data.length ≠ v.paged.data.length)) := by
      unfold PV.bucketInsert at h
      obtain ⟨_, _, h⟩ := ok_inv h
      obtain ⟨_, _, h⟩ := ok_inv h
      obtain ⟨v1, h1, h⟩ := ok_inv h
      obtain ⟨_, _, h⟩ := ok_inv h
      obtain ⟨_, _, h⟩ := ok_inv h
      obtain ⟨d, h2, h⟩ := ok_inv h
      injection h with h
      subst h
      dsimp only
      rw [store_len h2]
      exact pushBack_needs h1
    simp only [VOp.execF, hn, ok_bind]
    by_cases hl : v'.paged.data.length = v.paged.data.length
    · simp [hl, h, ok_bind, pure_ok]
    · simp [hl, pure_ok]
  | set i j x =>
    simp only [VOp.exec] at h
    simp [VOp.execF, h, ok_bind, set_len h, pure_ok]
  | resize n =>
    simp only [VOp.exec] at h
    have hl : v'.paged.data.length = v.paged.data.length := by
      unfold PV.resize at h
      obtain ⟨p, h1, h⟩ := ok_inv h
      injection h with h
      rw [← h]
      exact freeAll_len _ h1
    simp [VOp.execF, h, ok_bind, hl, pure_ok]
  | clear => exact absurd rfl hc

/-- The second element of a bucket fits into its page (of two elements), the third does not. -/
example : ∃ v : PV, vrun cfg4 (PV.empty cfg4) [.emplaceBack [[1#8, 0#8, 0#8, 0#8]]] = .ok v ∧
    (∃ v', (VOp.push 0 [2#8, 0#8, 0#8, 0#8]).execF cfg4 true false v = .ok (v', false) ∧
      (VOp.push 0 [3#8, 0#8, 0#8, 0#8]).execF cfg4 true false v' = .ok (v', true)) := by
  have e' : vrun cfg4 (PV.empty cfg4) [.emplaceBack [[1#8, 0#8, 0#8, 0#8]]] =
    .ok ⟨⟨[1#8, 0#8, 0#8, 0#8, 0#8, 0#8, 0#8, 0#8], List.replicate 15 cfg4.sentinel⟩, [⟨1, 2, 0⟩]⟩ := by decide +kernel
  refine ⟨_, e', ⟨⟨[1#8, 0#8, 0#8, 0#8, 2#8, 0#8, 0#8, 0#8], List.replicate 15 cfg4.sentinel⟩, [⟨2, 2, 0⟩]⟩, ?_, ?_⟩ <;> decide +kernel

end Cista.Paged

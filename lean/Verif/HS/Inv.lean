import Verif.HS.Probe

/-! # Probing a well-formed table -/
set_option linter.unusedSimpArgs false

namespace Cista.HS

variable {K V : Type} [DecidableEq K]

/-- Slot `i` is seen by the probe sequence of `h` before any empty byte. -/
def Reach (S : List Nat) (h i : Nat) : Prop :=
  ∃ n j, j < 8 ∧ slotOf S.length (pos S.length h n + j) = some i ∧ ∀ m, m < n → EMPTY ∉ win S (pos S.length h m)

/-- Slot bytes and entries of a table agree. -/
structure Core (hash : K → Nat) (S : List Nat) (es : List (Option (K × V))) : Prop where
  pc : PCap S.length
  sv : SV S
  len : es.length = S.length
  occ : ∀ i c : Nat, S[i]? = some c → isFull c = true → ∃ e : K × V, es[i]? = some (some e)
  tag : ∀ (i : Nat) (e : K × V), es[i]? = some (some e) → S[i]? = some (h2 (hash e.1))
  reach : ∀ (i : Nat) (e : K × V), es[i]? = some (some e) → Reach S (h1 (hash e.1)) i
  dist : ∀ (i j : Nat) (e f : K × V), es[i]? = some (some e) → es[j]? = some (some f) → e.1 = f.1 → i = j

theorem h2_lt (h : Nat) : h2 h < 128 := Nat.mod_lt _ (by omega)

theorem isFull_h2 (h : Nat) : isFull (h2 h) = true := by simp [isFull, h2_lt]

/-- Some group among the first `cap + 1` examined contains an empty byte. -/
def HasEmpty (S : List Nat) (h : Nat) : Prop := ∃ n, n ≤ S.length ∧ EMPTY ∈ win S (pos S.length h n)

theorem mem_win_slot {S : List Nat} {off j i c : Nat} (hj : j < 8) (hs : slotOf S.length (off + j) = some i) (hc : S[i]? = some c) :
    c ∈ win S off := win_mem.2 ⟨j, hj, byteAt_of_slotOf hs hc⟩

theorem hasEmpty_of {S : List Nat} (hc : PCap S.length) (h : Nat) (he : (∃ i : Nat, S[i]? = some EMPTY) ∨ S.length + 1 < 8) :
    HasEmpty S h := by
  rcases he with ⟨i, hi⟩ | h8
  · obtain ⟨n, j, hn, hj, hs⟩ := cover hc h (List.getElem?_eq_some_iff.1 hi).1
    exact ⟨n, hn, mem_win_slot hj hs hi⟩
  · exact ⟨0, by omega, small_pad h8 hc (pos_le _ _ _)⟩

/-! ## find -/

theorem scan_spec {es : List (Option (K × V))} {cap off : Nat} {k : K} : ∀ {is : List Nat},
    (∀ i ∈ is, ∃ e, es[(off + i) &&& cap]? = some (some e)) →
    (scan es cap off k is = .ok none ∧ ∀ i ∈ is, ∀ e, es[(off + i) &&& cap]? = some (some e) → e.1 ≠ k) ∨
      ∃ (x : Nat) (e : K × V), scan es cap off k is = .ok (some x) ∧ es[x]? = some (some e) ∧ e.1 = k
  | [], _ => Or.inl ⟨rfl, by simp⟩
  | i :: is, h => by
    obtain ⟨e, he⟩ := h i (by simp)
    have hE : entryAt es ((off + i) &&& cap) = .ok e := by unfold entryAt; rw [he]
    unfold scan
    rw [hE, ok_bind]
    by_cases hk : e.1 = k
    · rw [if_pos hk]; exact Or.inr ⟨_, e, rfl, he, hk⟩
    · rw [if_neg hk]
      rcases scan_spec (is := is) (fun i hi => h i (by simp [hi])) with ⟨h1, h2⟩ | h3
      · refine Or.inl ⟨h1, fun j hj f hf => ?_⟩
        rcases List.mem_cons.1 hj with rfl | hj
        · rw [he] at hf; injection hf with hf; injection hf with hf; rw [← hf]; exact hk
        · exact h2 j hj f hf
      · exact Or.inr h3

/-- Every match visited by a group scan is a live entry. -/
theorem Core.match_live {hash : K → Nat} {S : List Nat} {es : List (Option (K × V))} (c : Core hash S es) {off hk2 : Nat}
    (hh : hk2 < 128) : ∀ i ∈ matchIdx (win S off) hk2, ∃ e, es[(off + i) &&& S.length]? = some (some e) := by
  intro i hi
  obtain ⟨h8, b, hb, hf⟩ := matchIdx_full (win_grp c.sv off) hh hi
  rw [win_get h8] at hb
  injection hb with hb
  rw [← hb] at hf
  obtain ⟨s, hs, hS⟩ := full_slot hf
  obtain ⟨e, he⟩ := c.occ s _ hS hf
  exact ⟨e, by rw [slotOf_and c.pc hs]; exact he⟩

theorem findLoop_present {hash : K → Nat} {S t : List Nat} {st : HS K V} (hl : st.ctrl = layout S ++ t) (hcap : st.cap = S.length)
    (c : Core hash S st.entries) {k : K} {v : V} {i ni j : Nat} (he : st.entries[i]? = some (some (k, v))) (hj : j < 8)
    (hs : slotOf S.length (pos S.length (h1 (hash k)) ni + j) = some i)
    (hne : ∀ m, m < ni → EMPTY ∉ win S (pos S.length (h1 (hash k)) m)) :
    ∀ f n, n ≤ ni → ni < n + f →
      findLoop st k (h2 (hash k)) f (pos S.length (h1 (hash k)) n) (8 * n) = .ok (some i)
  | 0, n, h1', h2' => by omega
  | f + 1, n, h1', h2' => by
    unfold findLoop
    rw [hl, group_layout (pos_le _ _ _), ok_bind, hcap]
    have hlive := c.match_live (off := pos S.length (h1 (hash k)) n) (h2_lt (hash k))
    rcases scan_spec (k := k) hlive with ⟨hn, hnone⟩ | ⟨x, e, hx, hxe, hek⟩
    · rw [hn, ok_bind]
      have hlt : n < ni := by
        rcases Nat.lt_or_ge n ni with h | h
        · exact h
        · exfalso
          have : n = ni := by omega
          subst this
          have hin : j ∈ matchIdx (win S (pos S.length (h1 (hash k)) n)) (h2 (hash k)) := by
            apply matchIdx_hit (win_grp c.sv _) (h2_lt _)
            rw [win_get hj, byteAt_of_slotOf hs (c.tag i _ he)]
          exact hnone j hin (k, v) (by rw [slotOf_and c.pc hs]; exact he) rfl
      have hany : anyEmpty (win S (pos S.length (h1 (hash k)) n)) = false := by
        rw [Bool.eq_false_iff]
        exact fun h => hne n hlt ((anyEmpty_iff (win_grp c.sv _)).1 h)
      simp only [hany, Bool.false_eq_true, if_false]
      rw [pos_succ c.pc, show 8 * n + 8 = 8 * (n + 1) by omega]
      exact findLoop_present hl hcap c he hj hs hne f (n + 1) (by omega) (by omega)
    · rw [hx, ok_bind]
      have : x = i := c.dist x i e (k, v) hxe he hek
      rw [this]

theorem findLoop_absent {hash : K → Nat} {S t : List Nat} {st : HS K V} (hl : st.ctrl = layout S ++ t) (hcap : st.cap = S.length)
    (c : Core hash S st.entries) {k : K} (habs : ∀ (i : Nat) (e : K × V), st.entries[i]? = some (some e) → e.1 ≠ k) {h ne : Nat}
    (hne : EMPTY ∈ win S (pos S.length h ne)) :
    ∀ f n, n ≤ ne → ne < n + f → findLoop st k (h2 (hash k)) f (pos S.length h n) (8 * n) = .ok none
  | 0, n, h1', h2' => by omega
  | f + 1, n, h1', h2' => by
    unfold findLoop
    rw [hl, group_layout (pos_le _ _ _), ok_bind, hcap]
    rcases scan_spec (k := k) (c.match_live (off := pos S.length h n) (h2_lt (hash k))) with ⟨hn, hnone⟩ | ⟨x, e, hx, hxe, hek⟩
    · rw [hn, ok_bind]
      cases hany : anyEmpty (win S (pos S.length h n)) with
      | true => simp only [if_true]
      | false =>
        simp only [Bool.false_eq_true, if_false]
        rw [pos_succ c.pc, show 8 * n + 8 = 8 * (n + 1) by omega]
        have : n ≠ ne := by
          rintro rfl
          rw [(anyEmpty_iff (win_grp c.sv _)).2 hne] at hany; cases hany
        exact findLoop_absent hl hcap c habs hne f (n + 1) (by omega) (by omega)
    · exact absurd hek (habs x e hxe)

/-- `find` on a well-formed table, whatever the bound on the groups examined, as long as it covers the table. -/
theorem findN_present {hash : K → Nat} {S t : List Nat} {st : HS K V} (hl : st.ctrl = layout S ++ t) (hcap : st.cap = S.length)
    (c : Core hash S st.entries) {k : K} {v : V} {i : Nat} (he : st.entries[i]? = some (some (k, v)))
    (hE : HasEmpty S (h1 (hash k))) {f : Nat} (hf : st.cap < f) : findN hash f st k = .ok (some i) := by
  obtain ⟨ni, j, hj, hs, hne⟩ := c.reach i (k, v) he
  obtain ⟨ne, hle, hemp⟩ := hE
  have : ni ≤ ne := by
    rcases Nat.lt_or_ge ne ni with h | h
    · exact absurd hemp (hne ne h)
    · exact h
  unfold findN
  rw [hcap, pos_zero c.pc]
  exact findLoop_present hl hcap c he hj hs hne f 0 (by omega) (by omega)

theorem findN_absent {hash : K → Nat} {S t : List Nat} {st : HS K V} (hl : st.ctrl = layout S ++ t) (hcap : st.cap = S.length)
    (c : Core hash S st.entries) {k : K} (habs : ∀ (i : Nat) (e : K × V), st.entries[i]? = some (some e) → e.1 ≠ k)
    (hE : HasEmpty S (h1 (hash k))) {f : Nat} (hf : st.cap < f) : findN hash f st k = .ok none := by
  obtain ⟨ne, hle, hemp⟩ := hE
  unfold findN
  rw [hcap, pos_zero c.pc]
  exact findLoop_absent hl hcap c habs hemp f 0 (by omega) (by omega)

/-! ## find_first_non_full -/

theorem isED_EMPTY : isED EMPTY = true := rfl
theorem isED_DELETED : isED DELETED = true := rfl

theorem ffLoop_spec {S t : List Nat} (hc : PCap S.length) (sv : SV S) (h : Nat) {n1 c1 : Nat} (hc1 : c1 ∈ win S (pos S.length h n1))
    (hED : isED c1 = true) : ∀ f n, n ≤ n1 → n1 < n + f → (∀ m, m < n → ∀ c ∈ win S (pos S.length h m), isED c = false) →
      ∃ n' j, ffLoop (layout S ++ t) S.length f (pos S.length h n) (8 * n) = .ok ((pos S.length h n' + j) &&& S.length) ∧ j < 8 ∧
        isED (byteAt S (pos S.length h n' + j)) = true ∧ (∀ j', j' < j → isED (byteAt S (pos S.length h n' + j')) = false) ∧
        ∀ m, m < n' → ∀ c ∈ win S (pos S.length h m), isED c = false
  | 0, n, h1', h2', _ => by omega
  | f + 1, n, h1', h2', hno => by
    unfold ffLoop
    rw [group_layout (pos_le _ _ _), ok_bind]
    cases hf : firstED (win S (pos S.length h n)) with
    | some j =>
      obtain ⟨hj, ⟨c, hcj, hcE⟩, hlo⟩ := firstED_some (win_grp sv _) hf
      rw [win_get hj] at hcj; injection hcj with hcj
      refine ⟨n, j, rfl, hj, by rw [hcj]; exact hcE, fun j' hj' => hlo j' _ hj' (win_get (by omega)), hno⟩
    | none =>
      have hnone := firstED_none (win_grp sv _) hf
      dsimp only
      rw [pos_succ hc, show 8 * n + 8 = 8 * (n + 1) by omega]
      have : n ≠ n1 := by
        rintro rfl
        rw [hnone c1 hc1] at hED; cases hED
      refine ffLoop_spec hc sv h hc1 hED f (n + 1) (by omega) (by omega) fun m hm => ?_
      by_cases hmn : m = n
      · subst hmn; exact hnone
      · exact hno m (by omega)

theorem findFirst_spec {S t : List Nat} (hc : PCap S.length) (sv : SV S) (h : Nat)
    (hex : ∃ n1 c1, n1 ≤ S.length ∧ c1 ∈ win S (pos S.length (h1 h) n1) ∧ isED c1 = true) :
    ∃ n j, findFirst (layout S ++ t) S.length h = .ok ((pos S.length (h1 h) n + j) &&& S.length) ∧ j < 8 ∧
        isED (byteAt S (pos S.length (h1 h) n + j)) = true ∧ (∀ j', j' < j → isED (byteAt S (pos S.length (h1 h) n + j')) = false) ∧
        ∀ m, m < n → ∀ c ∈ win S (pos S.length (h1 h) m), isED c = false := by
  obtain ⟨n1, c1, hn1, hm, hE⟩ := hex
  unfold findFirst
  rw [pos_zero hc]
  exact ffLoop_spec hc sv (h1 h) hm hE (S.length + 1) 0 (by omega) (by omega) (by intro m hm; omega)

/-- With a free slot somewhere, `find_first_non_full` returns a free slot on the probe sequence. -/
theorem findFirst_slot {S : List Nat} (t : List Nat) (hc : PCap S.length) (sv : SV S) (h : Nat) {i0 c0 : Nat} (h0 : S[i0]? = some c0)
    (hE0 : isED c0 = true) : ∃ i c, findFirst (layout S ++ t) S.length h = .ok i ∧ S[i]? = some c ∧ isED c = true ∧
      Reach S (h1 h) i := by
  have hi0 := (List.getElem?_eq_some_iff.1 h0).1
  obtain ⟨n1, j1, hn1, hj1, hs1⟩ := cover hc (h1 h) hi0
  obtain ⟨n, j, hff, hj, hED, hlo, hno⟩ := findFirst_spec (t := t) hc sv h
    ⟨n1, c0, hn1, mem_win_slot hj1 hs1 h0, hE0⟩
  have hreach : ∀ m, m < n → EMPTY ∉ win S (pos S.length (h1 h) m) := fun m hm hmem => by
    have := hno m hm _ hmem
    rw [isED_EMPTY] at this; cases this
  rcases byteAt_cases (S := S) (pos S.length (h1 h) n + j) with ⟨i, c, hs, hS, hb⟩ | ⟨hs, ⟨_, hb⟩ | ⟨hp, hb⟩⟩
  · rw [slotOf_and hc hs] at hff
    exact ⟨i, c, hff, hS, by rw [← hb]; exact hED, n, j, hj, hs, hreach⟩
  · rw [hb] at hED; cases hED
  · -- the padding of a small table is never reached while a slot is free
    exfalso
    have hpl := pos_le S.length (h1 h) n
    have hsm := hc.small
    have hge : 2 * S.length + 1 ≤ pos S.length (h1 h) n + j := slotOf_none hs hp
    by_cases hle : pos S.length (h1 h) n ≤ i0
    · have := hlo (i0 - pos S.length (h1 h) n) (by omega)
      rw [byteAt_of_slotOf (slotOf_some.2 ⟨hi0, by omega⟩) h0, hE0] at this; cases this
    · have := hlo (i0 + S.length + 1 - pos S.length (h1 h) n) (by omega)
      rw [byteAt_of_slotOf (slotOf_some.2 ⟨hi0, by omega⟩) h0, hE0] at this; cases this

/-- With every slot of a small table full, it returns the end position. -/
theorem findFirst_full {S : List Nat} (t : List Nat) (hc : PCap S.length) (sv : SV S) (h : Nat) (h8 : S.length + 1 < 8)
    (hfull : ∀ c ∈ S, isED c = false) : findFirst (layout S ++ t) S.length h = .ok S.length := by
  have hsm := hc.small
  obtain ⟨n, j, hff, hj, hED, hlo, hno⟩ := findFirst_spec (t := t) hc sv h
    ⟨0, EMPTY, by omega, small_pad h8 hc (pos_le _ _ _), isED_EMPTY⟩
  have hpl := pos_le S.length (h1 h) n
  have hpad : ∀ p, 2 * S.length + 1 ≤ p → byteAt S p = EMPTY := by
    intro p hp
    unfold byteAt slotOf
    rw [if_neg (by omega), if_neg (by omega), if_neg (by omega)]
    simp; omega
  have hlow : ∀ p, p < 2 * S.length + 1 → isED (byteAt S p) = false := by
    intro p hp
    rcases byteAt_cases (S := S) p with ⟨i, c, hs, hS, hb⟩ | ⟨hs, ⟨_, hb⟩ | ⟨hp', hb⟩⟩
    · rw [hb]; exact hfull c (List.mem_of_getElem? hS)
    · rw [hb]; rfl
    · have := slotOf_none hs hp'
      omega
  have he : pos S.length (h1 h) n + j = 2 * S.length + 1 := by
    rcases Nat.lt_trichotomy (pos S.length (h1 h) n + j) (2 * S.length + 1) with h' | h' | h'
    · rw [hlow _ h'] at hED; cases hED
    · exact h'
    · have := hlo (2 * S.length + 1 - pos S.length (h1 h) n) (by omega)
      rw [show pos S.length (h1 h) n + (2 * S.length + 1 - pos S.length (h1 h) n) = 2 * S.length + 1 by omega, hpad _ (by omega),
        isED_EMPTY] at this
      cases this
  rw [hff, he, hc.and, show 2 * S.length + 1 = S.length + (S.length + 1) by omega, Nat.add_mod_right, Nat.mod_eq_of_lt (by omega)]

/-! ## Changing one slot -/

/-- Replacing a slot byte by a non-empty one only removes empty bytes. -/
theorem Reach.mono {S : List Nat} {h i x c : Nat} (r : Reach S h i) (hx : x < S.length) (hc : c ≠ EMPTY) : Reach (S.set x c) h i := by
  obtain ⟨n, j, hj, hs, hne⟩ := r
  refine ⟨n, j, hj, by simpa using hs, fun m hm hmem => hne m hm ?_⟩
  rw [List.length_set] at hmem
  obtain ⟨j', hj', hb⟩ := win_mem.1 hmem
  rw [byteAt_set hx] at hb
  split at hb
  · exact absurd hb hc
  · exact win_mem.2 ⟨j', hj', hb⟩

/-- Making a slot empty is harmless if every group showing it shows another empty byte. -/
theorem Reach.erase {S : List Nat} {h i x : Nat} (r : Reach S h i) (hx : x < S.length)
    (hw : ∀ off, off ≤ S.length → (∃ j, j < 8 ∧ slotOf S.length (off + j) = some x) → EMPTY ∈ win S off) :
    Reach (S.set x EMPTY) h i := by
  obtain ⟨n, j, hj, hs, hne⟩ := r
  refine ⟨n, j, hj, by simpa using hs, fun m hm hmem => hne m hm ?_⟩
  rw [List.length_set] at hmem
  obtain ⟨j', hj', hb⟩ := win_mem.1 hmem
  rw [byteAt_set hx] at hb
  split at hb
  · rename_i hsl
    exact hw _ (pos_le _ _ _) ⟨j', hj', hsl⟩
  · exact win_mem.2 ⟨j', hj', hb⟩

/-- Put a new entry into a free slot on its probe sequence. -/
theorem Core.put {hash : K → Nat} {S : List Nat} {es : List (Option (K × V))} (c : Core hash S es) {i ci : Nat} {e : K × V}
    (hS : S[i]? = some ci) (hE : isED ci = true) (hr : Reach S (h1 (hash e.1)) i)
    (habs : ∀ (j : Nat) (f : K × V), es[j]? = some (some f) → f.1 ≠ e.1) :
    es[i]? = some none ∧ Core hash (S.set i (h2 (hash e.1))) (es.set i (some e)) := by
  have hi := (List.getElem?_eq_some_iff.1 hS).1
  have hne : h2 (hash e.1) ≠ EMPTY := by have := h2_lt (hash e.1); unfold EMPTY; omega
  have hi' : i < es.length := by rw [c.len]; exact hi
  have hnone : es[i]? = some none := by
    cases h : es[i] with
    | none => rw [List.getElem?_eq_getElem hi', h]
    | some f =>
      have := c.tag i f (by rw [List.getElem?_eq_getElem hi', h])
      rw [hS] at this
      injection this with this
      rw [this] at hE
      have := h2_lt (hash f.1)
      simp [isED] at hE; omega
  have hget : ∀ (j : Nat) (f : K × V), (es.set i (some e))[j]? = some (some f) → (j = i ∧ f = e) ∨ (j ≠ i ∧ es[j]? = some (some f)) := by
    intro j f h
    by_cases hj : j = i
    · subst hj
      rw [List.getElem?_set_self hi'] at h
      injection h with h; injection h with h
      exact Or.inl ⟨rfl, h.symm⟩
    · rw [List.getElem?_set_ne (fun h => hj h.symm)] at h
      exact Or.inr ⟨hj, h⟩
  refine ⟨hnone, ?_⟩
  constructor
  · rw [List.length_set]; exact c.pc
  · exact c.sv.set (Or.inl (h2_lt _))
  · rw [List.length_set, List.length_set]; exact c.len
  · intro j b hb hf
    by_cases hj : j = i
    · subst hj; exact ⟨e, List.getElem?_set_self hi'⟩
    · rw [List.getElem?_set_ne (fun h => hj h.symm)] at hb ⊢
      exact c.occ j b hb hf
  · intro j f hf
    rcases hget j f hf with ⟨rfl, rfl⟩ | ⟨hj, hf⟩
    · exact List.getElem?_set_self hi
    · rw [List.getElem?_set_ne (fun h => hj h.symm)]; exact c.tag j f hf
  · intro j f hf
    rcases hget j f hf with ⟨rfl, rfl⟩ | ⟨hj, hf⟩
    · exact hr.mono hi hne
    · exact (c.reach j f hf).mono hi hne
  · intro a b f g hf hg hk
    rcases hget a f hf with ⟨rfl, rfl⟩ | ⟨ha, hf'⟩ <;> rcases hget b g hg with ⟨rfl, rfl⟩ | ⟨hb, hg'⟩
    · rfl
    · exact absurd hk.symm (habs b g hg')
    · exact absurd hk (habs a f hf')
    · exact c.dist a b f g hf' hg' hk

/-- Remove an entry, marking its slot deleted, or empty where that is harmless. -/
theorem Core.remove {hash : K → Nat} {S : List Nat} {es : List (Option (K × V))} (c : Core hash S es) {i b : Nat} {e : K × V}
    (he : es[i]? = some (some e)) (hb : b = DELETED ∨ (b = EMPTY ∧ ∀ off, off ≤ S.length →
      (∃ j, j < 8 ∧ slotOf S.length (off + j) = some i) → EMPTY ∈ win S off)) :
    Core hash (S.set i b) (es.set i none) := by
  have hi' := (List.getElem?_eq_some_iff.1 he).1
  have hi : i < S.length := by rw [← c.len]; exact hi'
  have hget : ∀ (j : Nat) (f : K × V), (es.set i none)[j]? = some (some f) → j ≠ i ∧ es[j]? = some (some f) := by
    intro j f h
    by_cases hj : j = i
    · subst hj
      rw [List.getElem?_set_self hi'] at h
      injection h with h; cases h
    · rw [List.getElem?_set_ne (fun h => hj h.symm)] at h
      exact ⟨hj, h⟩
  have hnf : isFull b = false := by rcases hb with h | ⟨h, _⟩ <;> rw [h] <;> rfl
  constructor
  · rw [List.length_set]; exact c.pc
  · exact c.sv.set (by rcases hb with h | ⟨h, _⟩ <;> simp [h])
  · rw [List.length_set, List.length_set]; exact c.len
  · intro j b' hb' hf
    by_cases hj : j = i
    · subst hj
      rw [List.getElem?_set_self hi] at hb'
      injection hb' with hb'
      rw [← hb', hnf] at hf; cases hf
    · rw [List.getElem?_set_ne (fun h => hj h.symm)] at hb' ⊢
      exact c.occ j b' hb' hf
  · intro j f hf
    obtain ⟨hj, hf⟩ := hget j f hf
    rw [List.getElem?_set_ne (fun h => hj h.symm)]; exact c.tag j f hf
  · intro j f hf
    obtain ⟨hj, hf⟩ := hget j f hf
    rcases hb with rfl | ⟨rfl, hw⟩
    · exact (c.reach j f hf).mono hi (by decide)
    · exact (c.reach j f hf).erase hi hw
  · intro a b' f g hf hg hk
    exact c.dist a b' f g (hget a f hf).2 (hget b' g hg).2 hk

/-- Assigning to the value of an entry. -/
theorem Core.assign {hash : K → Nat} {S : List Nat} {es : List (Option (K × V))} (c : Core hash S es) {i : Nat} {k : K} {v v' : V}
    (he : es[i]? = some (some (k, v))) : Core hash S (es.set i (some (k, v'))) := by
  have hi' := (List.getElem?_eq_some_iff.1 he).1
  have hget : ∀ (j : Nat) (f : K × V), (es.set i (some (k, v')))[j]? = some (some f) →
      ∃ f', es[j]? = some (some f') ∧ f'.1 = f.1 := by
    intro j f h
    by_cases hj : j = i
    · subst hj
      rw [List.getElem?_set_self hi'] at h
      injection h with h; injection h with h
      exact ⟨(k, v), he, by rw [← h]⟩
    · rw [List.getElem?_set_ne (fun h => hj h.symm)] at h
      exact ⟨f, h, rfl⟩
  constructor
  · exact c.pc
  · exact c.sv
  · rw [List.length_set]; exact c.len
  · intro j b hb hf
    obtain ⟨e, he'⟩ := c.occ j b hb hf
    by_cases hj : j = i
    · subst hj; exact ⟨_, List.getElem?_set_self hi'⟩
    · exact ⟨e, by rw [List.getElem?_set_ne (fun h => hj h.symm)]; exact he'⟩
  · intro j f hf
    obtain ⟨f', h1, h2⟩ := hget j f hf
    rw [← h2]; exact c.tag j f' h1
  · intro j f hf
    obtain ⟨f', h1, h2⟩ := hget j f hf
    rw [← h2]; exact c.reach j f' h1
  · intro a b f g hf hg hk
    obtain ⟨f', h1, h2⟩ := hget a f hf
    obtain ⟨g', h3, h4⟩ := hget b g hg
    exact c.dist a b f' g' h1 h3 (by rw [h2, h4]; exact hk)

/-! ## was_never_full -/

/-- In a table of at least seven slots positions wrap around. -/
theorem byteAt_wrap {S : List Nat} (h8 : 8 ≤ S.length + 1) {p q : Nat} (hp : p < S.length + 8) (hq : q < S.length + 8)
    (h : p = q ∨ p = q + (S.length + 1) ∨ q = p + (S.length + 1)) : byteAt S p = byteAt S q := by
  have key : ∀ p, p + (S.length + 1) < S.length + 8 → byteAt S p = byteAt S (p + (S.length + 1)) := by
    intro p hp
    have hl : p < S.length := by omega
    rw [byteAt_of_slotOf (slotOf_some.2 ⟨hl, Or.inl rfl⟩) (List.getElem?_eq_getElem hl),
      byteAt_of_slotOf (slotOf_some.2 ⟨hl, Or.inr (by omega)⟩) (List.getElem?_eq_getElem hl)]
  rcases h with h | h | h
  · rw [h]
  · subst h; exact (key q hp).symm
  · subst h; exact key p hq

theorem wasNeverFull_spec {S : List Nat} (t : List Nat) (hc : PCap S.length) (sv : SV S) {x cx : Nat} (hx : S[x]? = some cx)
    (hne : cx ≠ EMPTY) : ∃ b, wasNeverFull (layout S ++ t) S.length x = .ok b ∧
      (b = true → ∀ off, off ≤ S.length → (∃ j, j < 8 ∧ slotOf S.length (off + j) = some x) → EMPTY ∈ win S off) := by
  have hxl := (List.getElem?_eq_some_iff.1 hx).1
  have hbe := before_eq hc (i := x) (by omega)
  have hbl : before S.length x ≤ S.length := by rw [hbe]; split <;> (try split) <;> omega
  unfold wasNeverFull
  rw [group_layout (by omega), ok_bind, group_layout hbl, ok_bind]
  refine ⟨_, rfl, fun hb off hoff hj => ?_⟩
  simp only [Bool.and_eq_true, decide_eq_true_eq] at hb
  obtain ⟨⟨hb1, hb2⟩, hb3⟩ := hb
  by_cases h8 : S.length + 1 < 8
  · exact small_pad h8 hc hoff
  obtain ⟨j, hj8, hs⟩ := hj
  obtain ⟨ha8, haE, _⟩ := tzEmpty (win_grp sv x) hb2
  obtain ⟨hl8, hlE, _⟩ := lzEmpty (win_grp sv (before S.length x)) hb1
  generalize tz (emptyMask (win S x)) / 8 = a at *
  generalize lz (emptyMask (win S (before S.length x))) / 8 = b at *
  rw [win_get ha8] at haE
  rw [win_get (by omega)] at hlE
  injection haE with haE
  injection hlE with hlE
  have ha0 : a ≠ 0 := by
    rintro rfl
    rw [Nat.add_zero, byteAt_slot hx] at haE
    exact hne haE
  obtain ⟨_, hp⟩ := slotOf_some.1 hs
  rw [if_neg h8] at hbe
  refine win_mem.2 ?_
  by_cases hja : j + a < 8
  · refine ⟨j + a, hja, ?_⟩
    rw [byteAt_wrap (by omega) (by omega) (by omega : x + a < S.length + 8) (by omega)]; exact haE
  · refine ⟨j - 1 - b, by omega, ?_⟩
    rw [byteAt_wrap (by omega) (by omega) (by omega : before S.length x + (7 - b) < S.length + 8) (by split at hbe <;> omega)]
    exact hlE

end Cista.HS

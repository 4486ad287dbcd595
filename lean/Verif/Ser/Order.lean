import Verif.Ser.Containers

/-!
# Containers that keep numbers where serialization does not see them

`basic_bitvec` lists only `blocks_` in `cista_members` (bitvec.h:47), so that `size_` is copied but never converted.  `paged` stores the links of
its free lists inside the elements of free pages (paged.h:86-98, 137-148), so that they are converted like elements.  Both are right when the
byte order of the machine that loads is that of the machine that wrote.
-/
set_option linter.unusedSimpArgs false
set_option linter.unusedSectionVars false

namespace Cista.Ser

open Cista.Arith (Mode)
open Cista.Hash (HashT dataStart)

section
open Cista.Bits

/-- The bitvec at `a`: `size_` is read by the machine in its own byte order. -/
def ReadsBV (s : Side) (a : Nat) (v : Bitvec 64) : Prop :=
  ∃ bs, Reads s bitvecTy a (.list [.bytes bs, encBlocks v.blocks]) ∧ ofHost s.host bs = v.size

theorem bitvec_plain : bitvecTy.Plain := agg2_plain (Nat.dvd_refl 8) (by decide : 4 ∣ 8) (ints_plain (by decide))

/-- Whoever loads a bitvec gets the same blocks, and the bytes of the size as they were written. -/
theorem bitvec_carried {host : Endian} {raw : Bool} {m : Mode} {th sh : HashT} {mem : Mem} {a : Nat} {v : Bitvec 64} (hm : Usual m)
    (h : ReadsBV ⟨host, raw, mem⟩ a v) :
    Carried host raw m th sh mem bitvecTy a fun s r => ∀ v' : Bitvec 64, ReadsBV s r v' ↔
      v'.blocks = v.blocks ∧ v'.size = ofHost s.host (hostBytes host 4 v.size) := by
  obtain ⟨bs, h, hsz⟩ := h
  have hsz : ofHost host bs = v.size := hsz
  obtain ⟨bytes, h1, h2⟩ := C130_plain (th := th) (sh := sh) hm.version hm.integrity hm.cast bitvec_wf bitvec_plain h
  refine ⟨bytes, h1, fun g base mem2 hl hrd => ?_⟩
  obtain ⟨mem', e1, e2, _⟩ := h2 g base mem2 hl hrd
  have hlen : bs.length = 4 := by
    obtain ⟨v, w, e, h3, _⟩ := reads_agg2.1 h
    injection e with e4 e5
    subst e4
    have h3 : rd mem a 4 = bs := h3
    rw [← h3]; rfl
  have hbs : bs = hostBytes host 4 v.size := by rw [← hsz, hostBytes_ofHost host hlen]
  refine ⟨mem', e1, fun v' => ⟨fun ⟨bs', h3, h4⟩ => ?_, fun ⟨h3, h4⟩ => ⟨bs, by rw [h3]; exact e2, by rw [h4, hbs]⟩⟩⟩
  have := h3.unique e2
  injection this with this
  injection this with e5 e6
  injection e5 with e5
  injection e6 with e6
  exact ⟨encBlocks_inj _ _ e6, by rw [← h4, e5, hbs]⟩

/-- **C131** A bitvec that is serialized and loaded again on a machine of the same byte order has the same size and the same bits (missing: machines
of the other byte order, see `C131_bitvec_violated`). -/
theorem C131_bitvec_partial {host : Endian} {raw : Bool} {m : Mode} {th sh : HashT} {mem : Mem} {a : Nat} {v : Bitvec 64} (hm : Usual m)
    (hs : v.size < 2 ^ 32) (h : ReadsBV ⟨host, raw, mem⟩ a v) :
    Carried host raw m th sh mem bitvecTy a fun s r => s.host = host → ∀ v' : Bitvec 64, ReadsBV s r v' ↔ v' = v := by
  obtain ⟨bytes, h1, h2⟩ := bitvec_carried (th := th) (sh := sh) hm h
  refine ⟨bytes, h1, fun g base mem2 hl hrd => ?_⟩
  obtain ⟨mem', e1, e2⟩ := h2 g base mem2 hl hrd
  refine ⟨mem', e1, fun hh v' => (e2 v').trans ?_⟩
  have hh : g.host = host := hh
  show v'.blocks = v.blocks ∧ v'.size = ofHost g.host _ ↔ _
  rw [hh, ofHost_hostBytes hs]
  cases v'; cases v
  rw [Bitvec.mk.injEq]
  exact And.comm

/-- **C131**, violated: on a machine of the other byte order the loaded bitvec has another size, with the same blocks. -/
theorem C131_bitvec_violated {host : Endian} {raw : Bool} {m : Mode} {th sh : HashT} {mem : Mem} {a : Nat} {v : Bitvec 64} (hm : Usual m)
    (h0 : 0 < v.size) (hs : v.size < 256) (h : ReadsBV ⟨host, raw, mem⟩ a v) :
    Carried host raw m th sh mem bitvecTy a fun s r => s.host ≠ host →
      ReadsBV s r ⟨v.size * 2 ^ 24, v.blocks⟩ ∧ ¬ ReadsBV s r v := by
  obtain ⟨bytes, h1, h2⟩ := bitvec_carried (th := th) (sh := sh) hm h
  refine ⟨bytes, h1, fun g base mem2 hl hrd => ?_⟩
  obtain ⟨mem', e1, e2⟩ := h2 g base mem2 hl hrd
  refine ⟨mem', e1, fun hh => ?_⟩
  have hh : g.host ≠ host := hh
  have hx : ofHost g.host (hostBytes host 4 v.size) = v.size * 2 ^ 24 := by
    generalize v.size = n at hs
    have : ∀ n : Fin 256, ofHost .little (hostBytes .big 4 n.1) = n.1 * 2 ^ 24 ∧ ofHost .big (hostBytes .little 4 n.1) = n.1 * 2 ^ 24 := by
      decide +kernel
    have := this ⟨n, hs⟩
    revert hh
    cases g.host <;> cases host <;> intro hh
    · exact absurd rfl hh
    · exact this.1
    · exact this.2
    · exact absurd rfl hh
  refine ⟨(e2 _).2 ⟨rfl, hx.symm⟩, fun hr => ?_⟩
  have := ((e2 _).1 hr).2.trans hx
  omega

/-- A bitvec of 70 bits at 64. -/
def bvMem : Mem := segs ([(64, leBytes 4 70)] ++ vecAt 72 256 2 (numsLE 8 [5, 3]))

theorem bv_reads : ReadsBV ⟨.little, false, bvMem⟩ 64 ⟨70, [5#64, 3#64]⟩ :=
  ⟨[70, 0, 0, 0], reads_of_readsB (by decide +kernel), by decide⟩

example : Carried .little false demoMode 17#64 23#64 bvMem bitvecTy 64 fun s r => s.host = .little → ∀ v', ReadsBV s r v' ↔ v' = ⟨70, [5#64, 3#64]⟩ :=
  C131_bitvec_partial demo_usual (by decide) bv_reads

/-- Loaded by a big-endian machine it has 1174405120 bits in two blocks. -/
example : Carried .little false demoMode 17#64 23#64 bvMem bitvecTy 64 fun s r => s.host ≠ .little →
    ReadsBV s r ⟨1174405120, [5#64, 3#64]⟩ ∧ ¬ ReadsBV s r ⟨70, [5#64, 3#64]⟩ :=
  C131_bitvec_violated demo_usual (by decide) (by decide) bv_reads

end

section
open Cista.Paged

/-- paged.h:14-22 `page` with a `SizeType` of `S` bytes. -/
def pageOff (S : Nat) : Fin 3 → Nat
  | 0 => 0
  | 1 => 2
  | 2 => S
def pageTys (S : Nat) : Fin 3 → Ty
  | 0 => .int 2
  | 1 => .int 2
  | 2 => .int S
@[inherit_doc pageOff]
abbrev pageTy (S : Nat) : Ty := .agg (2 * S) S 3 (pageOff S) (pageTys S)

/-- paged.h:132-151 `node`. -/
abbrev nodeTy (S : Nat) : Ty := .agg S S 1 (fun _ => 0) fun _ => .int S

/-- Size of a `paged` with `F` free lists: padded to a multiple of 8. -/
def pagedSize (S F : Nat) : Nat := (24 + F * S + 7) / 8 * 8

/-- paged.h:153-154: `data_`, `free_list_`. -/
abbrev pagedTy (E S F : Nat) : Ty := .agg (pagedSize S F) 8 2 (off2 24) (ty2 (ints E) (.arr F (nodeTy S)))

/-- paged_vecvec.h:356-357: `paged_`, `idx_`. -/
abbrev pvTy (E S F : Nat) : Ty :=
  .agg (pagedSize S F + 24) 8 2 (off2 (pagedSize S F)) (ty2 (pagedTy E S F) (.vec 4 false (pageTy S)))

theorem page_wf {S : Nat} (hS : S = 4 ∨ S = 8) : (pageTy S).WF := by
  refine ⟨by omega, by omega, Nat.dvd_mul_left _ _, fun i => ?_, fun i j hij => ?_⟩
  · match i with
    | 0 => exact ⟨Or.inr (Or.inl rfl), by show 0 + 2 ≤ _; omega, Nat.dvd_zero _, by show 2 ∣ S; omega⟩
    | 1 => exact ⟨Or.inr (Or.inl rfl), by show 2 + 2 ≤ _; omega, Nat.dvd_refl 2, by show 2 ∣ S; omega⟩
    | 2 => exact ⟨Or.inr (Or.inr hS), by show S + S ≤ _; omega, Nat.dvd_refl S, Nat.dvd_refl S⟩
  · revert hij
    match i, j with
    | 0, 0 | 0, 1 | 0, 2 | 1, 0 | 1, 1 | 1, 2 | 2, 0 | 2, 1 | 2, 2 =>
      intro hij
      simp only [pageOff, pageTys, Ty.sizeof]
      omega

theorem page_plain {S : Nat} (hS : S = 4 ∨ S = 8) : (pageTy S).Plain :=
  ⟨dvd8 (by omega), fun i => match i with
    | 0 => (by decide : 2 ∣ 8)
    | 1 => (by decide : 2 ∣ 8)
    | 2 => dvd8 (by omega)⟩

theorem pv_wf {E S F : Nat} (hE : E = 1 ∨ E = 2 ∨ E = 4 ∨ E = 8) (hS : S = 4 ∨ S = 8) (hF : 0 < F) : (pvTy E S F).WF := by
  have hS8 : S ∣ 8 := dvd8 (by omega)
  have hn : (nodeTy S).WF := ⟨by omega, by omega, Nat.dvd_refl _, fun i => ⟨Or.inr (Or.inr hS), by simp [Ty.sizeof], Nat.dvd_zero _, Nat.dvd_refl _⟩,
    fun i j hij => by omega⟩
  have hsz : 24 + F * S ≤ pagedSize S F := by unfold pagedSize; omega
  have hd : 8 ∣ pagedSize S F := Nat.dvd_mul_left _ _
  exact agg2_wf (by omega) (by decide) (by omega)
    (agg2_wf (by omega) (by decide) hd (ints_wf hE) ⟨hF, hn⟩ (Nat.le_refl 24) hsz (Nat.dvd_refl 8) hS8
      (Nat.dvd_trans hS8 (by decide : 8 ∣ 24))) ⟨Or.inl rfl, page_wf hS⟩ (Nat.le_refl _) (Nat.le_refl _) (Nat.dvd_refl 8) (Nat.dvd_refl 8) hd

theorem pv_plain {E S F : Nat} (hE : E = 1 ∨ E = 2 ∨ E = 4 ∨ E = 8) (hS : S = 4 ∨ S = 8) : (pvTy E S F).Plain :=
  agg2_plain (Nat.dvd_refl 8) (agg2_plain (Nat.dvd_refl 8) (ints_plain hE) ⟨dvd8 (by omega), fun _ => dvd8 (by omega)⟩)
    ⟨rfl, by simp only [Ty.sizeof]; omega, page_plain hS⟩

/-- A page in memory. -/
def encPage (q : Page) : Val := .list [.num q.size, .num q.cap, .num q.start]

theorem encPage_inj (x y : Page) (e : encPage x = encPage y) : x = y := by
  cases x; cases y
  injection e with e
  injection e with e1 e
  injection e with e2 e
  injection e with e3 e
  injection e1 with e1
  injection e2 with e2
  injection e3 with e3
  rw [Page.mk.injEq]
  exact ⟨e1, e2, e3⟩

/-- Elements, heads of the free lists and pages. -/
def encPV (nums free : List Nat) (idx : List Page) : Val :=
  .list [.list [encNums nums, .list (free.map fun n => .list [.num n])], .list (idx.map encPage)]

theorem encPV_inj {n n' f f' : List Nat} {i i' : List Page} (e : encPV n f i = encPV n' f' i') : n = n' ∧ f = f' ∧ i = i' := by
  injection e with e
  injection e with e1 e
  injection e with e2 e
  injection e1 with e1
  injection e1 with e3 e1
  injection e1 with e4 e1
  refine ⟨encNums_inj e3, list_inj (enc := fun n => .list [.num n]) (fun v v' e => ?_) e4, list_inj encPage_inj e2⟩
  injection e with e
  injection e with e
  injection e

/-- The paged_vecvec at `a`, with `F` free lists: its elements are numbers of `E` bytes, `data_` consists of their bytes. -/
def ReadsPV (s : Side) (E S F a : Nat) (v : PV) : Prop :=
  ∃ nums, Reads s (pvTy E S F) a (encPV nums v.paged.free v.idx) ∧ v.paged.data = nums.flatMap (hostBytes s.host E)

/-- Whoever loads a paged_vecvec gets the same elements, heads of free lists and pages. -/
theorem paged_carried {host : Endian} {raw : Bool} {m : Mode} {th sh : HashT} {mem : Mem} {a E S F : Nat} {v : PV} (hm : Usual m)
    (hE : E = 1 ∨ E = 2 ∨ E = 4 ∨ E = 8) (hS : S = 4 ∨ S = 8) (hF : 0 < F) (h : ReadsPV ⟨host, raw, mem⟩ E S F a v) :
    ∃ nums : List Nat, v.paged.data = nums.flatMap (hostBytes host E) ∧ (∀ n ∈ nums, n < 256 ^ E) ∧
      Carried host raw m th sh mem (pvTy E S F) a fun s r => ∀ v' : PV, ReadsPV s E S F r v' ↔
        v' = ⟨⟨nums.flatMap (hostBytes s.host E), v.paged.free⟩, v.idx⟩ := by
  obtain ⟨nums, h, hd⟩ := h
  obtain ⟨bytes, h1, h2⟩ := C130_plain (th := th) (sh := sh) hm.version hm.integrity hm.cast (pv_wf hE hS hF) (pv_plain hE hS) h
  refine ⟨nums, hd, fun n hn => ?_, bytes, h1, fun g base mem2 hl hrd => ?_⟩
  · obtain ⟨p, q, e, h3, _⟩ := reads_agg2.1 h
    injection e with e4 e5
    subst e4
    obtain ⟨p, q, e, h4, _⟩ := reads_agg2.1 h3
    injection e with e6 e7
    subst e6
    obtain ⟨i, hi, hin⟩ := List.getElem_of_mem hn
    have h4 : _ ∧ (nums.map Val.num = [] ∨ _) := h4
    rcases h4.2 with h5 | ⟨x, _, h5⟩
    · rw [List.map_eq_nil_iff.1 h5] at hn; exact absurd hn (List.not_mem_nil)
    · have h6 : rdN host mem (x + i * E) E = n := h5 i (.num n) (by rw [List.getElem?_map, List.getElem?_eq_getElem hi, hin]; rfl)
      rw [← h6]
      have := ofHost_lt host (rd mem (x + i * E) E)
      rwa [show (rd mem (x + i * E) E).length = E by simp [rd]] at this
  · obtain ⟨mem', e1, e2, _⟩ := h2 g base mem2 hl hrd
    refine ⟨mem', e1, fun v' => ⟨fun ⟨n', h3, h4⟩ => ?_, fun e => ?_⟩⟩
    · obtain ⟨e5, e6, e7⟩ := encPV_inj (h3.unique e2)
      rcases v' with ⟨⟨d, f⟩, i⟩
      have h4 : d = _ := h4
      have e6 : f = _ := e6
      have e7 : i = _ := e7
      rw [h4, e6, e7, e5]
    · subst e
      exact ⟨nums, e2, rfl⟩

/-- **C131** A paged_vecvec of integers that is serialized and loaded again on a machine of the same byte order is the same: elements, buckets and
free lists (missing: machines of the other byte order, see `C131_paged_words_partial` and `C131_paged_violated`). -/
theorem C131_paged_partial {host : Endian} {raw : Bool} {m : Mode} {th sh : HashT} {mem : Mem} {a E S F : Nat} {v : PV} (hm : Usual m)
    (hE : E = 1 ∨ E = 2 ∨ E = 4 ∨ E = 8) (hS : S = 4 ∨ S = 8) (hF : 0 < F) (h : ReadsPV ⟨host, raw, mem⟩ E S F a v) :
    Carried host raw m th sh mem (pvTy E S F) a fun s r => s.host = host → ∀ v' : PV, ReadsPV s E S F r v' ↔ v' = v := by
  obtain ⟨nums, hd, _, bytes, h1, h2⟩ := paged_carried (th := th) (sh := sh) hm hE hS hF h
  refine ⟨bytes, h1, fun g base mem2 hl hrd => ?_⟩
  obtain ⟨mem', e1, e2⟩ := h2 g base mem2 hl hrd
  refine ⟨mem', e1, fun hh v' => (e2 v').trans ?_⟩
  have hh : g.host = host := hh
  show v' = ⟨⟨nums.flatMap (hostBytes g.host E), _⟩, _⟩ ↔ _
  rw [hh, ← hd]

theorem load_flatMap {e : Endian} {E : Nat} (hE : 0 < E) : ∀ (nums : List Nat) (off : Nat),
    load (nums.flatMap (hostBytes e E)) (off * E) E = match nums[off]? with
      | some n => .ok (hostBytes e E n)
      | none => .error .ub
  | [], off => by
    unfold load
    rw [show decide (off * E + E ≤ (List.flatMap (hostBytes e E) []).length) = false by simp; omega]
    rfl
  | n :: nums, 0 => by
    unfold load
    rw [show decide (0 * E + E ≤ (List.flatMap (hostBytes e E) (n :: nums)).length) = true by simp]
    simp [List.take_append, require_true, ok_bind]
  | n :: nums, off + 1 => by
    have := load_flatMap (e := e) hE nums off
    rw [List.getElem?_cons_succ, ← this]
    unfold load
    have hdec : decide ((off + 1) * E + E ≤ (List.flatMap (hostBytes e E) (n :: nums)).length)
        = decide (off * E + E ≤ (nums.flatMap (hostBytes e E)).length) := by
      rw [Nat.add_mul, Nat.one_mul]
      simp only [List.flatMap_cons, List.length_append, length_hostBytes, decide_eq_decide]
      omega
    rw [hdec]
    rw [Nat.add_mul, Nat.one_mul, List.flatMap_cons, List.drop_append, List.drop_eq_nil_of_le (by simp)]
    simp

/-- **C131** If the elements are as wide as `size_type` a paged_vecvec can be loaded on a machine of either byte order: the pages and the heads of the
free lists are the same, and every element and every link, read by that machine, has the same value (missing: other widths). -/
theorem C131_paged_words_partial {host : Endian} {raw : Bool} {m : Mode} {th sh : HashT} {mem : Mem} {a F : Nat} {c : Paged.Cfg} {v : PV} (hm : Usual m)
    (hS : c.S = 4 ∨ c.S = 8) (hES : c.E = c.S) (hc : c.host = host) (hF : 0 < F) (h : ReadsPV ⟨host, raw, mem⟩ c.E c.S F a v) :
    Carried host raw m th sh mem (pvTy c.E c.S F) a fun s r => ∃ v', ReadsPV s c.E c.S F r v' ∧ v'.idx = v.idx ∧ v'.paged.free = v.paged.free ∧
      v'.paged.data.length = v.paged.data.length ∧
      ∀ off, v'.paged.read { c with host := s.host } off = v.paged.read c off := by
  obtain ⟨nums, hd, hlt, bytes, h1, h2⟩ := paged_carried (th := th) (sh := sh) hm (by omega) hS hF h
  refine ⟨bytes, h1, fun g base mem2 hl hrd => ?_⟩
  obtain ⟨mem', e1, e2⟩ := h2 g base mem2 hl hrd
  refine ⟨mem', e1, _, (e2 _).2 rfl, rfl, rfl, ?_, fun off => ?_⟩
  · rw [hd]
    simp [List.length_flatMap]
  · unfold Paged.read
    show (do let bs ← load (nums.flatMap (hostBytes g.host c.E)) (off * c.E) c.S; pure (ofHost g.host bs)) = _
    rw [hd, hc, ← hES, load_flatMap (by omega), load_flatMap (by omega)]
    cases hn : nums[off]? with
    | none => rfl
    | some n =>
      have := hlt n (List.mem_of_getElem? hn)
      show Except.ok (ofHost g.host _) = Except.ok (ofHost host _)
      rw [ofHost_hostBytes this, ofHost_hostBytes this]

/-- Elements of one byte, `size_type` of 4 bytes, pages of 8 to 32768 elements (the defaults, paged.h:26-30). -/
def byteCfg (e : Endian) : Paged.Cfg := ⟨e, 1, 4, 3, 15⟩

/-- Three buckets are added, the last two are removed again. -/
def byteVV (e : Endian) : Res PV := do
  let v ← (PV.empty (byteCfg e)).emplaceBack (byteCfg e) [[1]]
  let v ← v.emplaceBack (byteCfg e) [[2]]
  let v ← v.emplaceBack (byteCfg e) [[3]]
  v.resize (byteCfg e) 1

/-- The outcome on a little-endian machine: one bucket, and a free list with the pages at 16 and at 8. -/
def byteState : PV :=
  ⟨⟨[1, 0, 0, 0, 0, 0, 0, 0, 0xff, 0xff, 0xff, 0xff, 0, 0, 0, 0, 8, 0, 0, 0, 0, 0, 0, 0], 16 :: List.replicate 12 0xffffffff⟩, [⟨1, 8, 0⟩]⟩

/-- Both pages are in use again. -/
def byteState2 : PV :=
  ⟨⟨[1, 0, 0, 0, 0, 0, 0, 0, 5, 0xff, 0xff, 0xff, 0, 0, 0, 0, 4, 0, 0, 0, 0, 0, 0, 0], List.replicate 13 0xffffffff⟩,
    [⟨1, 8, 0⟩, ⟨1, 8, 16⟩, ⟨1, 8, 8⟩]⟩

/-- Two buckets are added. -/
def addTwo (e : Endian) (v : PV) : Res PV := do
  let v ← v.emplaceBack (byteCfg e) [[4]]
  v.emplaceBack (byteCfg e) [[5]]

/-- **C131**, violated: a paged_vecvec of bytes is written on a little-endian machine and loaded on a big-endian one.  There the first link of the
free list is read in the wrong order, and adding two buckets accesses elements that do not exist; on the machine that wrote it, it does not. -/
theorem C131_paged_violated {raw : Bool} {m : Mode} {th sh : HashT} {mem : Mem} {a : Nat} (hm : Usual m) :
    ∃ v, byteVV .little = .ok v ∧ (∃ v', addTwo .little v = .ok v') ∧ (ReadsPV ⟨.little, raw, mem⟩ 1 4 13 a v →
      Carried .little raw m th sh mem (pvTy 1 4 13) a fun s r => s.host = .big →
        ∃ v', ReadsPV s 1 4 13 r v' ∧ addTwo .big v' = .error .ub) := by
  refine ⟨byteState, by decide +kernel, ?_, fun h => ?_⟩
  · exact ⟨byteState2, by decide +kernel⟩
  obtain ⟨nums, hd, hlt, bytes, h1, h2⟩ := paged_carried (th := th) (sh := sh) hm (Or.inl rfl) (Or.inl rfl) (by decide) h
  refine ⟨bytes, h1, fun g base mem2 hl hrd => ?_⟩
  obtain ⟨mem', e1, e2⟩ := h2 g base mem2 hl hrd
  refine ⟨mem', e1, fun hh => ⟨byteState, (e2 _).2 ?_, by decide +kernel⟩⟩
  have hh : g.host = .big := hh
  show byteState = ⟨⟨nums.flatMap (hostBytes g.host 1), _⟩, _⟩
  have : nums.flatMap (hostBytes g.host 1) = nums.flatMap (hostBytes .little 1) := by
    rw [hh]
    rfl
  rw [this, ← hd]

/-- `byteState` at 64. -/
def pvMem : Mem := segs (vecAt 64 512 24 byteState.paged.data ++ [(88, numsLE 4 byteState.paged.free)] ++
  vecAt 144 640 1 (leBytes 2 1 ++ leBytes 2 8 ++ leBytes 4 0))

theorem pv_reads : ReadsPV ⟨.little, false, pvMem⟩ 1 4 13 64 byteState :=
  ⟨byteState.paged.data.map (·.toNat), reads_of_readsB (by decide +kernel), by decide +kernel⟩

example : Carried .little false demoMode 17#64 23#64 pvMem (pvTy 1 4 13) 64 fun s r => s.host = .little → ∀ v', ReadsPV s 1 4 13 r v' ↔ v' = byteState :=
  C131_paged_partial demo_usual (by decide) (by decide) (by decide) pv_reads

/-- Words of 4 bytes in pages of 2: one bucket `[258]` and a free page that is the last of its list. -/
def wordState : PV := ⟨⟨numsLE 4 [258, 0, 0xffffffff, 0], [2]⟩, [⟨1, 2, 0⟩]⟩

def wordMem : Mem := segs (vecAt 64 512 4 wordState.paged.data ++ [(88, leBytes 4 2)] ++ vecAt 96 640 1 (leBytes 2 1 ++ leBytes 2 2 ++ leBytes 4 0))

example : Carried .little false demoMode 17#64 23#64 wordMem (pvTy 4 4 1) 64 fun s r => ∃ v', ReadsPV s 4 4 1 r v' ∧ v'.idx = wordState.idx ∧
    v'.paged.free = wordState.paged.free ∧ v'.paged.data.length = wordState.paged.data.length ∧
    ∀ off, v'.paged.read ⟨s.host, 4, 4, 1, 1⟩ off = wordState.paged.read ⟨.little, 4, 4, 1, 1⟩ off :=
  C131_paged_words_partial (c := ⟨.little, 4, 4, 1, 1⟩) demo_usual (Or.inl rfl) rfl rfl (by decide)
    ⟨[258, 0, 0xffffffff, 0], reads_of_readsB (by decide +kernel), by decide +kernel⟩

end

end Cista.Ser

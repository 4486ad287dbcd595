import Verif.Ser.Containers
import Verif.RTree.Props

/-!
# Serialized R-trees

`basic_rtree` with `cista::vector_map` as its vector (rtree.h:633-652), `float` or `double` coordinates (bytes that are never converted, like every
`NumType` that is no integer) and a 32-bit `SizeType`.  The members of `m_` (rtree.h:621-628) are converted; a node has its own functions
(rtree.h:223-251): the writer overwrites the copied bytes of `count_`, `kind_` and `rects_` with their conversion, which only compiles if the byte
order of the file is that of the writer (`endian_swap` of the array of rectangles, conversion.h:21-23), so that nothing changes; the reader converts
only the data of leaves.  A node is therefore a block of bytes, for the reader of the other byte order if `DataType` needs no conversion.
-/
set_option linter.unusedSimpArgs false
set_option linter.unusedSectionVars false

namespace Cista.RTree
section
local instance serMode : Mode := ⟨False⟩

/-- C35 for every query after the same history. -/
theorem search_all {N T : Type} [Coord N] {D : Nat} [NeZero D] [DecidableEq T] {M : Nat} (hM : 3 ≤ M) (ops : List (Op N T D))
    (hn : inserts ops < limit M) : ∃ st os m, run M (RT.init : RT N T D) ops = .ok (st, os) ∧ Steps [] ops os m ∧
      ∀ r, ∃ found rest, search st r (fun _ _ => true) = .ok found ∧ m.Perm (found ++ rest) ∧ (∀ e ∈ found, Meets e.1 r) ∧
        ∀ e ∈ rest, ¬Meets e.1 r := by
  rw [limit_eq] at hn
  obtain ⟨st, os, m, h1, h2, h3⟩ := run_ok hM ops (B := 0) (by omega) (Rep.init M) (nomatch ·) (nomatch ·)
  refine ⟨st, os, m, h1, h2, fun r => ?_⟩
  obtain ⟨st', o, m', q1, q2, _⟩ := exec_ok hM (by omega) h3 (.search r fun _ _ => true) (nomatch ·) (nomatch ·)
  simp only [Op.exec] at q1
  cases hs : search st r (fun _ _ => true) with
  | error e => rw [hs] at q1; cases q1
  | ok es =>
    rw [hs, ok_bind] at q1
    injection q1 with q1
    injection q1 with _ q1
    subst q1
    cases q2 with
    | search _ _ hits rest _ hp hh hr ho =>
      have : es = hits := by
        refine Classical.byContradiction fun hne => ?_
        obtain ⟨p, e, _, h⟩ := ho.2.2 hne
        cases h
      subst this
      exact ⟨es, rest, rfl, hp, hh, hr⟩

end
end Cista.RTree

namespace Cista.Ser

open Cista.Arith (Mode)
open Cista.Hash (HashT dataStart)
open Cista.RTree (RT Node Rect Kind Pay Coord)

/-- `Dims`, `MaxItems`, bytes of `NumType` and of `DataType`. -/
structure TreeLayout where
  D : Nat
  M : Nat
  cw : Nat
  dw : Nat

namespace TreeLayout

/-- Size of a rectangle. -/
def rectSize (l : TreeLayout) : Nat := 2 * l.D * l.cw
/-- rtree.h:259-262: position of the union, behind `count_` (4 bytes), `kind_` (1 byte, padded) and `rects_`. -/
def payAt (l : TreeLayout) : Nat := 8 + l.M * l.rectSize
/-- `sizeof(node)`: the union is as large as its larger member. -/
def nodeSize (l : TreeLayout) : Nat := (l.payAt + l.M * max l.dw 4 + 7) / 8 * 8

/-- rtree.h:621-628 `meta`. -/
def metaOff (l : TreeLayout) : Fin 6 → Nat
  | 0 => 0
  | 1 => l.rectSize
  | 2 => l.rectSize + 4
  | 3 => l.rectSize + 8
  | 4 => l.rectSize + 12
  | 5 => l.rectSize + 16
def metaTys (l : TreeLayout) : Fin 6 → Ty
  | 0 => .arr (2 * l.D) (.blob l.cw l.cw)
  | 1 => .int 4
  | 2 => .int 4
  | 3 => .int 4
  | 4 => .int 4
  | 5 => .arr 16 (.int 4)

/-- rtree.h:621-630: `m_`, `nodes_`. -/
abbrev ty (l : TreeLayout) : Ty :=
  .agg (l.rectSize + 104) 8 2 (off2 (l.rectSize + 80)) (ty2 (.agg (l.rectSize + 80) l.cw 6 l.metaOff l.metaTys) (.vec 4 false (.blob l.nodeSize 8)))

/-- The layouts considered. -/
structure Ok (l : TreeLayout) : Prop where
  D0 : 0 < l.D
  cw : l.cw = 4 ∨ l.cw = 8
  fits : l.nodeSize < 2 ^ 63

variable {l : TreeLayout}

theorem Ok.dvd (h : l.Ok) : 8 ∣ l.rectSize := by
  unfold rectSize
  rcases h.cw with e | e <;> rw [e] <;> omega

theorem ty_wf (h : l.Ok) : l.ty.WF := by
  have h8 := h.dvd
  have hc := h.cw
  have hc8 : l.cw ∣ 8 := by rcases hc with e | e <;> rw [e] <;> decide
  have h4 : 4 ∣ l.cw := by rcases hc with e | e <;> rw [e] <;> decide
  have hR : l.cw ∣ l.rectSize := Nat.dvd_trans hc8 h8
  refine agg2_wf (by omega) (by decide) (by omega) ?_ ⟨Or.inl rfl, ?_⟩ (Nat.le_refl _) (Nat.le_refl _) hc8 (Nat.dvd_refl 8)
    (by show 8 ∣ l.rectSize + 80; omega)
  · refine ⟨by omega, by omega, (Nat.dvd_add_right hR).2 (Nat.dvd_trans hc8 (by decide)), fun i => ?_, fun i j hij => ?_⟩
    · match i with
      | 0 =>
        exact ⟨⟨by have := h.D0; omega, by rcases hc with e | e <;> rw [e] <;> exact ⟨by decide, by decide, by decide⟩⟩,
          by show 0 + 2 * l.D * l.cw ≤ _; unfold rectSize; omega, Nat.dvd_zero _, Nat.dvd_refl _⟩
      | 1 => exact ⟨Or.inr (Or.inr (Or.inl rfl)), by show l.rectSize + 4 ≤ _; omega, by show 4 ∣ l.rectSize; omega, h4⟩
      | 2 => exact ⟨Or.inr (Or.inr (Or.inl rfl)), by show l.rectSize + 4 + 4 ≤ _; omega, by show 4 ∣ l.rectSize + 4; omega, h4⟩
      | 3 => exact ⟨Or.inr (Or.inr (Or.inl rfl)), by show l.rectSize + 8 + 4 ≤ _; omega, by show 4 ∣ l.rectSize + 8; omega, h4⟩
      | 4 => exact ⟨Or.inr (Or.inr (Or.inl rfl)), by show l.rectSize + 12 + 4 ≤ _; omega, by show 4 ∣ l.rectSize + 12; omega, h4⟩
      | 5 => exact ⟨⟨by decide, Or.inr (Or.inr (Or.inl rfl))⟩, by show l.rectSize + 16 + 16 * 4 ≤ _; omega, by show 4 ∣ l.rectSize + 16; omega, h4⟩
    · have hs : (l.metaTys 0).sizeof = l.rectSize := rfl
      revert hij
      match i, j with
      | 0, 0 | 0, 1 | 0, 2 | 0, 3 | 0, 4 | 0, 5 | 1, 0 | 1, 1 | 1, 2 | 1, 3 | 1, 4 | 1, 5 | 2, 0 | 2, 1 | 2, 2 | 2, 3 | 2, 4 | 2, 5
      | 3, 0 | 3, 1 | 3, 2 | 3, 3 | 3, 4 | 3, 5 | 4, 0 | 4, 1 | 4, 2 | 4, 3 | 4, 4 | 4, 5 | 5, 0 | 5, 1 | 5, 2 | 5, 3 | 5, 4 | 5, 5 =>
        intro hij
        simp only [metaOff, hs]
        first
          | omega
          | (simp only [metaTys, Ty.sizeof]; omega)
  · exact ⟨by unfold nodeSize payAt; omega, by decide, Nat.dvd_mul_left _ _⟩

theorem ty_plain (h : l.Ok) : l.ty.Plain := by
  have hc8 : l.cw ∣ 8 := by rcases h.cw with e | e <;> rw [e] <;> decide
  exact agg2_plain (Nat.dvd_refl 8) ⟨hc8, fun i => match i with
    | 0 => hc8
    | 1 | 2 | 3 | 4 => (by decide : 4 ∣ 8)
    | 5 => (by decide : 4 ∣ 8)⟩ ⟨rfl, h.fits, Nat.dvd_refl 8⟩

end TreeLayout

/-- How a machine reads a coordinate and an item. -/
structure Codec (N T : Type) where
  num : Endian → List Byte → N
  dat : Endian → List Byte → T

/-- rtree.h:31 `kind`. -/
def kindByte : Kind → Byte
  | .leaf => 0
  | .branch => 1
  | .endFree => 2

def slice (bs : List Byte) (p n : Nat) : List Byte := (bs.drop p).take n

variable {N T : Type}

/-- The bytes of a node (rtree.h:256-262), as a machine of byte order `e` reads them. -/
def NodeIs (l : TreeLayout) (K : Codec N T) (e : Endian) (bs : List Byte) (n : Node N T l.D) : Prop :=
  ofHost e (bs.take 4) = n.count ∧ bs[4]? = some (kindByte n.kind) ∧ n.slots.length = l.M ∧ ∀ (i : Nat) s, n.slots[i]? = some s →
    (∀ d : Fin l.D, s.1.lo d = K.num e (slice bs (8 + i * l.rectSize + d * l.cw) l.cw) ∧
      s.1.hi d = K.num e (slice bs (8 + i * l.rectSize + (l.D + d) * l.cw) l.cw)) ∧
    match s.2 with
    | .raw => True
    | .child c => ofHost e (slice bs (l.payAt + i * 4) 4) = c
    | .item x => K.dat e (slice bs (l.payAt + i * l.dw) l.dw) = x

/-- A `node_idx_t`; `invalid()` is the largest value. -/
def encIdx : Option Nat → Nat
  | none => 2 ^ 32 - 1
  | some i => i

/-- The members of `m_` and the bytes of the nodes. -/
def encTree (rb nbs : List (List Byte)) (root free count height : Nat) (hint : List Nat) : Val :=
  .list [.list [.list (rb.map .bytes), .num root, .num free, .num count, .num height, encNums hint], .list (nbs.map .bytes)]

/-- The R-tree at `a`. -/
def ReadsRT (s : Side) (l : TreeLayout) (K : Codec N T) (a : Nat) (st : RT N T l.D) : Prop :=
  ∃ rb nbs, Reads s l.ty a (encTree rb nbs (encIdx st.root) (encIdx st.free) st.count st.height st.hint) ∧
    (∀ d : Fin l.D, st.rect.lo d = K.num s.host (rb.getD d []) ∧ st.rect.hi d = K.num s.host (rb.getD (l.D + d) [])) ∧
    nbs.length = st.nodes.length ∧ ∀ (i : Nat) n, st.nodes[i]? = some n → ∃ bs, nbs[i]? = some bs ∧ NodeIs l K s.host bs n

/-- **C132** An R-tree that is serialized and loaded again on a machine of the same byte order is the same: nodes, rectangles, data, free list, count,
height (missing: machines of the other byte order, see `C132_other_order_violated`). -/
theorem C132_same_order_partial {host : Endian} {raw : Bool} {m : Mode} {th sh : HashT} {mem : Mem} {a : Nat} {l : TreeLayout} {K : Codec N T}
    {st : RT N T l.D} (hm : Usual m) (hl : l.Ok) (h : ReadsRT ⟨host, raw, mem⟩ l K a st) :
    Carried host raw m th sh mem l.ty a fun s r => s.host = host → ReadsRT s l K r st := by
  obtain ⟨rb, nbs, h, h3, h4, h5⟩ := h
  obtain ⟨bytes, h1, h2⟩ := C130_plain (th := th) (sh := sh) hm.version hm.integrity hm.cast (l.ty_wf hl) (l.ty_plain hl) h
  refine ⟨bytes, h1, fun g base mem2 hl hrd => ?_⟩
  obtain ⟨mem', e1, e2, _⟩ := h2 g base mem2 hl hrd
  refine ⟨mem', e1, fun hh => ?_⟩
  have hh : g.host = host := hh
  refine ⟨rb, nbs, e2, ?_, h4, ?_⟩
  · show ∀ d : Fin l.D, _ = K.num g.host _ ∧ _ = K.num g.host _
    rw [hh]
    exact h3
  · show ∀ (i : Nat) n, _ → ∃ bs, _ ∧ NodeIs l K g.host bs n
    rw [hh]
    exact h5

/-- **C132** Whatever was done with an R-tree (within the limits of C35) before it was written: on a machine of the same byte order a search in the
loaded tree reports exactly the entries that meet the query. -/
theorem C132_search_partial {host : Endian} {raw : Bool} {m : Mode} {th sh : HashT} {mem : Mem} {a : Nat} {l : TreeLayout} [Coord N] [DecidableEq T]
    [NeZero l.D] {K : Codec N T} {st : RT N T l.D} (hm : Usual m) (hl : l.Ok) (hM : 3 ≤ l.M) {ops : List (RTree.Op N T l.D)}
    {os : List (RTree.Out N T l.D)} (hn : RTree.inserts ops < RTree.limit l.M) (hr : RTree.run l.M RT.init ops = .ok (st, os))
    (h : ReadsRT ⟨host, raw, mem⟩ l K a st) :
    Carried host raw m th sh mem l.ty a fun s r => s.host = host → ∃ st' entries, ReadsRT s l K r st' ∧ RTree.Steps [] ops os entries ∧
      ∀ q, ∃ found rest, RTree.search st' q (fun _ _ => true) = .ok found ∧ entries.Perm (found ++ rest) ∧
        (∀ e ∈ found, RTree.Meets e.1 q) ∧ ∀ e ∈ rest, ¬ RTree.Meets e.1 q := by
  obtain ⟨bytes, h1, h2⟩ := C132_same_order_partial (th := th) (sh := sh) hm hl h
  refine ⟨bytes, h1, fun g base mem2 hld hrd => ?_⟩
  obtain ⟨mem', e1, e2⟩ := h2 g base mem2 hld hrd
  refine ⟨mem', e1, fun hh => ?_⟩
  obtain ⟨st0, os0, entries, q1, q2, q3⟩ := RTree.search_all hM ops hn
  rw [hr] at q1
  injection q1 with q1
  injection q1 with q1 q4
  subst q1; subst q4
  exact ⟨st, entries, e2 hh, q2, q3⟩

/-- **C132**, violated: on a machine of the other byte order the number of entries of every node that is in use (with fewer than 256) is wrong. -/
theorem C132_other_order_violated {host : Endian} {raw : Bool} {m : Mode} {th sh : HashT} {mem : Mem} {a : Nat} {l : TreeLayout} {K : Codec N T}
    {st : RT N T l.D} (hm : Usual m) (hl : l.Ok) (h : ReadsRT ⟨host, raw, mem⟩ l K a st) {i : Nat} {n : Node N T l.D}
    (hi : st.nodes[i]? = some n) (h0 : 0 < n.count) (hc : n.count < 256) :
    Carried host raw m th sh mem l.ty a fun s r => s.host ≠ host → ∃ x, s.ptr (r + (l.rectSize + 80)) = some x ∧
      s.nat (x + i * l.nodeSize) 4 = n.count * 2 ^ 24 ∧ n.count * 2 ^ 24 ≠ n.count := by
  obtain ⟨rb, nbs, h, h3, h4, h5⟩ := h
  obtain ⟨bs, hbs, hcount, _⟩ := h5 i n hi
  obtain ⟨bytes, h1, h2⟩ := C130_plain (th := th) (sh := sh) hm.version hm.integrity hm.cast (l.ty_wf hl) (l.ty_plain hl) h
  refine ⟨bytes, h1, fun g base mem2 hl hrd => ?_⟩
  obtain ⟨mem', e1, e2, _⟩ := h2 g base mem2 hl hrd
  refine ⟨mem', e1, fun hh => ?_⟩
  have hh : g.host ≠ host := hh
  obtain ⟨v, w, e, _, h6⟩ := reads_agg2.1 e2
  injection e with e3 e4
  injection e4 with e4
  subst e4
  have h6 : _ ∧ (nbs.map Val.bytes = [] ∨ ∃ x, Side.ptr _ _ = some x ∧ _) := h6
  rcases h6.2 with h7 | ⟨x, hx, h7⟩
  · rw [List.map_eq_nil_iff.1 h7] at hbs; exact absurd hbs nofun
  refine ⟨x, hx, ?_, by omega⟩
  have h8 : rd mem' (x + i * l.nodeSize) l.nodeSize = bs := h7 i (.bytes bs) (by rw [List.getElem?_map, hbs]; rfl)
  have hns : 4 ≤ l.nodeSize := by unfold TreeLayout.nodeSize TreeLayout.payAt; omega
  have h9 : rd mem' (x + i * l.nodeSize) 4 = bs.take 4 := by
    rw [← h8]
    unfold rd
    rw [← List.map_take, List.take_range, Nat.min_eq_left hns]
  have hlen : (bs.take 4).length = 4 := by rw [← h9]; rfl
  show ofHost g.host (rd mem' _ 4) = _
  have hb : bs.take 4 = hostBytes host 4 n.count := by rw [← hcount, hostBytes_ofHost host hlen]
  rw [h9, hb]
  generalize n.count = c at hc
  have : ∀ c : Fin 256, ofHost .little (hostBytes .big 4 c.1) = c.1 * 2 ^ 24 ∧ ofHost .big (hostBytes .little 4 c.1) = c.1 * 2 ^ 24 := by
    decide +kernel
  have := this ⟨c, hc⟩
  revert hh
  cases g.host <;> cases host <;> intro hh
  · exact absurd rfl hh
  · exact this.1
  · exact this.2
  · exact absurd rfl hh

/-! ## Example -/

/-- A decision procedure for `NodeIs`. -/
def nodeB (l : TreeLayout) (K : Codec Nat Nat) (e : Endian) (bs : List Byte) (n : Node Nat Nat l.D) : Bool :=
  ofHost e (bs.take 4) == n.count && bs[4]? == some (kindByte n.kind) && n.slots.length == l.M && n.slots.zipIdx.all fun (s, i) =>
    decide (∀ d : Fin l.D, s.1.lo d = K.num e (slice bs (8 + i * l.rectSize + d * l.cw) l.cw) ∧
      s.1.hi d = K.num e (slice bs (8 + i * l.rectSize + (l.D + d) * l.cw) l.cw)) &&
    match s.2 with
    | .raw => true
    | .child c => ofHost e (slice bs (l.payAt + i * 4) 4) == c
    | .item x => K.dat e (slice bs (l.payAt + i * l.dw) l.dw) == x

theorem nodeIs_of_nodeB {l : TreeLayout} {K : Codec Nat Nat} {e : Endian} {bs : List Byte} {n : Node Nat Nat l.D} (h : nodeB l K e bs n = true) :
    NodeIs l K e bs n := by
  unfold nodeB at h
  simp only [Bool.and_eq_true, beq_iff_eq, List.all_eq_true] at h
  refine ⟨h.1.1.1, h.1.1.2, h.1.2, fun i s hs => ?_⟩
  have h1 := h.2 (s, i) (List.mem_zipIdx_iff_getElem?.2 hs)
  simp only [Bool.and_eq_true] at h1
  refine ⟨of_decide_eq_true h1.1, ?_⟩
  have h2 := h1.2
  cases hp : s.2 with
  | raw => trivial
  | child c => rw [hp] at h2; exact eq_of_beq h2
  | item x => rw [hp] at h2; exact eq_of_beq h2

/-- One dimension, three entries per node, coordinates of four bytes, items of one byte. -/
def rtreeLayout : TreeLayout := ⟨1, 3, 4, 1⟩

theorem treeLayout_ok : rtreeLayout.Ok := ⟨by decide, Or.inl rfl, by decide⟩

instance : NeZero rtreeLayout.D := ⟨by decide⟩

def natCodec : Codec Nat Nat := ⟨ofHost, ofHost⟩

def treeBox (a b : Nat) : Rect Nat rtreeLayout.D := ⟨fun _ => a, fun _ => b⟩

/-- Four items, so that the first leaf was split. -/
def treeOps : List (RTree.Op Nat Nat rtreeLayout.D) :=
  [.insert (treeBox 1 2) 7, .insert (treeBox 3 4) 8, .insert (treeBox 300 301) 9, .insert (treeBox 400 402) 10]

def rtreeState : RT Nat Nat rtreeLayout.D := match RTree.run 3 RT.init treeOps with
  | .ok (st, _) => st
  | .error _ => RT.init

/-- The bytes of the nodes: two leaves and, between them, the root. -/
def treeNodes : List (List Byte) :=
  [leBytes 4 2 ++ [0, 0, 0, 0] ++ numsLE 4 [1, 2, 3, 4, 300, 301] ++ [7, 8, 9, 0, 0, 0, 0, 0, 0, 0, 0, 0, 0, 0, 0, 0],
   leBytes 4 2 ++ [1, 0, 0, 0] ++ numsLE 4 [1, 4, 300, 402, 0, 0] ++ numsLE 4 [0, 2, 0, 0],
   leBytes 4 2 ++ [0, 0, 0, 0] ++ numsLE 4 [300, 301, 400, 402, 0, 0] ++ [9, 10, 0, 0, 0, 0, 0, 0, 0, 0, 0, 0, 0, 0, 0, 0]]

/-- The tree at 64. -/
def rtreeMem : Mem := segs ([(64, numsLE 4 [1, 402, 1, 0xffffffff, 4, 2, 1])] ++ vecAt 152 512 3 treeNodes.flatten)

theorem tree_reads : ReadsRT ⟨.little, false, rtreeMem⟩ rtreeLayout natCodec 64 rtreeState := by
  refine ⟨[leBytes 4 1, leBytes 4 402], treeNodes, reads_of_readsB (by decide +kernel), by decide +kernel, by decide +kernel, fun i n hn => ?_⟩
  have h : (rtreeState.nodes.zipIdx.all fun (n, i) => match treeNodes[i]? with
      | some bs => nodeB rtreeLayout natCodec .little bs n
      | none => false) = true := by decide +kernel
  have h1 := List.all_eq_true.1 h (n, i) (List.mem_zipIdx_iff_getElem?.2 hn)
  cases hb : treeNodes[i]? with
  | none => simp only [hb] at h1; exact absurd h1 nofun
  | some bs => simp only [hb] at h1; exact ⟨bs, rfl, nodeIs_of_nodeB h1⟩

theorem tree_run : ∃ os, RTree.run rtreeLayout.M RT.init treeOps = .ok (rtreeState, os) := by
  obtain ⟨st, os, m, h, _⟩ := RTree.search_all (M := rtreeLayout.M) (by decide) treeOps (by decide)
  have : rtreeState = st := by
    have h' : RTree.run 3 RT.init treeOps = .ok (st, os) := h
    unfold rtreeState
    rw [h']
  exact ⟨os, by rw [this]; exact h⟩

example : ∃ os, Carried .little false demoMode 17#64 23#64 rtreeMem rtreeLayout.ty 64 fun s r => s.host = .little →
    ∃ st' entries, ReadsRT s rtreeLayout natCodec r st' ∧ RTree.Steps [] treeOps os entries ∧
      ∀ q, ∃ found rest, RTree.search st' q (fun _ _ => true) = .ok found ∧ entries.Perm (found ++ rest) ∧
        (∀ e ∈ found, RTree.Meets e.1 q) ∧ ∀ e ∈ rest, ¬ RTree.Meets e.1 q := by
  obtain ⟨os, h⟩ := tree_run
  exact ⟨os, C132_search_partial demo_usual treeLayout_ok (by decide) (by decide) h tree_reads⟩

/-- A big-endian machine reads 33554432 entries in the first leaf. -/
example : Carried .little false demoMode 17#64 23#64 rtreeMem rtreeLayout.ty 64 fun s r => s.host ≠ .little →
    ∃ x, s.ptr (r + 88) = some x ∧ s.nat x 4 = 33554432 := by
  obtain ⟨n, hn, hc⟩ : ∃ n, rtreeState.nodes[0]? = some n ∧ n.count = 2 := by
    have h : (rtreeState.nodes[0]?).map (·.count) = some 2 := by decide +kernel
    cases hn : rtreeState.nodes[0]? with
    | none => rw [hn] at h; exact absurd h nofun
    | some n => rw [hn] at h; injection h with h; exact ⟨n, rfl, h⟩
  obtain ⟨bytes, h1, h2⟩ := C132_other_order_violated (m := demoMode) (th := 17#64) (sh := 23#64) demo_usual treeLayout_ok tree_reads hn (by omega) (by omega)
  refine ⟨bytes, h1, fun g base mem2 hl hrd => ?_⟩
  obtain ⟨mem', e1, e2⟩ := h2 g base mem2 hl hrd
  refine ⟨mem', e1, fun hh => ?_⟩
  obtain ⟨x, hx, hy, _⟩ := e2 hh
  rw [hc] at hy
  exact ⟨x, hx, by simpa using hy⟩

end Cista.Ser

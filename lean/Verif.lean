import Verif.Arith.Alloc
import Verif.Arith.Lemmas
import Verif.Arith.Model
import Verif.Arith.Props
import Verif.Basic
import Verif.Bits.Lemmas
import Verif.Bits.Loops
import Verif.Bits.Model
import Verif.Bits.Observe
import Verif.Bits.Props
import Verif.Bytes
import Verif.Conc.Fetch
import Verif.Conc.Model
import Verif.Conc.Props
import Verif.Domain.Bits
import Verif.Domain.Containers
import Verif.Domain.More
import Verif.Domain.Rest
import Verif.Fail.Bits
import Verif.Fail.CStr
import Verif.Fail.HS
import Verif.Fail.MM
import Verif.Fail.Multi
import Verif.Fail.NVec
import Verif.Fail.Paged
import Verif.Fail.PagedIff
import Verif.Fail.Prog
import Verif.Fail.Str
import Verif.Fail.Vector
import Verif.HS.Check
import Verif.HS.Churn
import Verif.HS.Group
import Verif.HS.Inv
import Verif.HS.Iter
import Verif.HS.Model
import Verif.HS.Ops
import Verif.HS.Own
import Verif.HS.Probe
import Verif.HS.Props
import Verif.Hash.Buf
import Verif.Hash.Build
import Verif.Hash.Equal
import Verif.Hash.Lemmas
import Verif.Hash.Model
import Verif.Hash.Props
import Verif.Hash.Wy
import Verif.Io.Handles
import Verif.Io.MmapFail
import Verif.Io.Props
import Verif.Io.Stdio
import Verif.Io.Target
import Verif.Io.Unaligned
import Verif.Io.Win
import Verif.MM.Access
import Verif.MM.Alias
import Verif.MM.Lemmas
import Verif.MM.Memory
import Verif.MM.Model
import Verif.MM.Ops
import Verif.MM.Props
import Verif.Mem
import Verif.Misc.FlatMatrix
import Verif.Misc.MmapVec
import Verif.Misc.Reflect
import Verif.Misc.Strong
import Verif.Multi.Access
import Verif.Multi.Alias
import Verif.Multi.Fws
import Verif.Multi.NVec
import Verif.Multi.NVecOwn
import Verif.Multi.Offs
import Verif.Multi.VecVec
import Verif.OffsetPtr.Model
import Verif.OffsetPtr.Props
import Verif.Paged.Hist
import Verif.Paged.Lemmas
import Verif.Paged.Model
import Verif.Paged.Own
import Verif.Paged.Props
import Verif.Paged.VV
import Verif.RTree.Delete
import Verif.RTree.Height
import Verif.RTree.Heur
import Verif.RTree.Insert
import Verif.RTree.Inv
import Verif.RTree.Local
import Verif.RTree.Memory
import Verif.RTree.Model
import Verif.RTree.Props
import Verif.RTree.Top
import Verif.Ser.Api
import Verif.Ser.CString
import Verif.Ser.Check
import Verif.Ser.Containers
import Verif.Ser.Deep
import Verif.Ser.DeepOk
import Verif.Ser.Demo
import Verif.Ser.DeserOk
import Verif.Ser.Hash
import Verif.Ser.HashDemo
import Verif.Ser.Lay
import Verif.Ser.Le
import Verif.Ser.Lemmas
import Verif.Ser.Model
import Verif.Ser.Order
import Verif.Ser.Plain
import Verif.Ser.Props
import Verif.Ser.RTree
import Verif.Ser.Read
import Verif.Ser.Rec
import Verif.Ser.RecDemo
import Verif.Ser.Root
import Verif.Ser.Round
import Verif.Ser.SerOk
import Verif.Ser.Spec
import Verif.Ser.Twin
import Verif.Ser.Violated
import Verif.Ser.Write
import Verif.Str.CModel
import Verif.Str.CProps
import Verif.Str.Compare
import Verif.Str.Lemmas
import Verif.Str.Model
import Verif.Str.Ops
import Verif.Str.Props
import Verif.Sum.Optional
import Verif.Sum.Tuple
import Verif.Sum.UPtr
import Verif.Sum.Variant
import Verif.Sum.Wrapped
import Verif.Target.Model
import Verif.Target.Props
import Verif.Throw.HS
import Verif.Throw.HSCopy
import Verif.Throw.Sum
import Verif.Throw.Vector
import Verif.TypeHash.Change
import Verif.TypeHash.Deep
import Verif.TypeHash.Lemmas
import Verif.TypeHash.Model
import Verif.TypeHash.Name
import Verif.TypeHash.Props
import Verif.Vector.Growth
import Verif.Vector.Lemmas
import Verif.Vector.Model
import Verif.Vector.Ops
import Verif.Vector.Props

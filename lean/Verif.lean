import Verif.Props.Broadword
import Verif.Props.BitVector
import Verif.Props.Enumerator
import Verif.Props.RSBitVector
import Verif.Props.Darray
import Verif.Props.EliasFano
import Verif.Props.Gamma
import Verif.Props.BpVector
import Verif.Props.CartesianTree
import Verif.Props.Mapper
import Verif.Props.Util
import Verif.Props.Space
import Verif.Props.Life
import Verif.Props.Canon
import Verif.Props.Tree
import Verif.Props.Agree
import Verif.Props.Stream
import Verif.Props.Work
import Verif.Props.Ties
import Verif.Props.Spent
import Verif.Props.CharSign
import Verif.Props.TopKOrder
import Verif.Props.Unbalanced
import Verif.Props.Contract
import Verif.Props.Machine
import Verif.Props.MachineEF
import Verif.Props.MachineEnum
import Verif.Props.EnumActual
import Verif.Props.StreamActual
import Verif.Props.TopKOver
import Verif.Props.Range
import Verif.Props.Getline
import Verif.Props.Align
import Verif.Props.Alloc
import Verif.Props.MappableAlloc
import Verif.Props.MachineBp
import Verif.Props.Release
import Verif.Props.MachineTopK
import Verif.Props.OutStream
import Verif.Props.Image
import Verif.Props.Dump
import Verif.Props.StepExact
import Verif.Props.LineShare
import Verif.Props.AnyComp
import Verif.Props.AnyTopK
import Verif.Props.Cost
import Verif.Props.Reads
import Verif.Props.TopKAlloc
import Verif.Props.BpReject
import Verif.Props.BuilderAlloc
import Verif.Props.ByteOrder
import Verif.Props.VbyteAny
import Verif.Props.SeqReads
import Verif.Props.ReleaseRank
import Verif.Props.Checked
import Verif.Props.ReleaseSeq
import Verif.Props.Tests
import Verif.Props.ReleaseRmq
import Verif.Props.ReleaseBuilder
import Verif.Props.ReleaseFano
import Verif.Props.ReleaseBp
import Verif.Props.ReleaseMake
import Verif.Props.ReleaseCart
import Verif.Props.PerfFano
import Verif.Props.PerfBp
import Verif.Props.UserClass
import Verif.Props.DataModel
import Verif.Props.Reproducible
import Verif.Props.Size32
import Verif.Props.Walk
import Verif.Props.Bytes
import Verif.Props.Vbyte32
import Verif.Props.AutoFile
import Verif.Props.EnumSwap
import Verif.Props.LineAgree
import Verif.Props.GammaSwap
import Verif.Props.FanoSwap
import Verif.Props.TopKSwap
import Verif.Props.ListSwap
import Verif.Props.MappableIter

import Verif.Props.Algorithms
import Verif.Props.Aod
import Verif.Props.Canonical
import Verif.Props.Classic
import Verif.Props.CloseId
import Verif.Props.ComputeTable
import Verif.Props.Count
import Verif.Props.DDArith
import Verif.Props.DDBuild
import Verif.Props.DDKron
import Verif.Props.DDMeasure
import Verif.Props.DDTrace
import Verif.Props.Dag
import Verif.Props.Depth
import Verif.Props.DirectedGraph
import Verif.Props.DisjointSet
import Verif.Props.Dynamic
import Verif.Props.Expression
import Verif.Props.Fidelity
import Verif.Props.Flags
import Verif.Props.Fraction
import Verif.Props.Garbage
import Verif.Props.Gates
import Verif.Props.IOMap
import Verif.Props.Interaction
import Verif.Props.Layer
import Verif.Props.Layout
import Verif.Props.LayoutHeader
import Verif.Props.MeasureAll
import Verif.Props.MemoryManager
import Verif.Props.NA
import Verif.Props.Noise
import Verif.Props.NoiseCache
import Verif.Props.Opt
import Verif.Props.OptBackprop
import Verif.Props.OptBlocks
import Verif.Props.OptDefer
import Verif.Props.OptFinal
import Verif.Props.OptFusion
import Verif.Props.OptReset
import Verif.Props.PackageGC
import Verif.Props.ParseU
import Verif.Props.PiRational
import Verif.Props.Print
import Verif.Props.Program
import Verif.Props.QASM
import Verif.Props.QASMCircuit
import Verif.Props.QASMExport
import Verif.Props.QASMImport
import Verif.Props.QASMParse
import Verif.Props.QASMText
import Verif.Props.QASMTypes
import Verif.Props.RandomClifford
import Verif.Props.RealNumberTag
import Verif.Props.RealTable
import Verif.Props.RefCount
import Verif.Props.Register
import Verif.Props.Registers
import Verif.Props.RemoveOp
import Verif.Props.Reorder
import Verif.Props.RoundClifford
import Verif.Props.Sample
import Verif.Props.Scanner
import Verif.Props.Sim
import Verif.Props.StatePrep
import Verif.Props.StdOps
import Verif.Props.Stochastic
import Verif.Props.Strip
import Verif.Props.Symbolic
import Verif.Props.SymmetricMatrix
import Verif.Props.Traverse
import Verif.Props.UndirectedGraph
import Verif.Props.UniqueTable
import Verif.Props.ZXAdjoint
import Verif.Props.ZXBuild
import Verif.Props.ZXConcat
import Verif.Props.ZXDiagram
import Verif.Props.ZXDisconnected
import Verif.Props.ZXIdentity
import Verif.Props.ZXIter
import Verif.Props.ZXRules

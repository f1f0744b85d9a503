import Verif.Model.Advanced
import Verif.Model.Analysis
import Verif.Model.Antimonene
import Verif.Model.Arpack
import Verif.Model.Atom
import Verif.Model.Base
import Verif.Model.Bloch
import Verif.Model.Config
import Verif.Model.Csr
import Verif.Model.Cube
import Verif.Model.Evolution
import Verif.Model.Fft
import Verif.Model.HopDict
import Verif.Model.Hopping
import Verif.Model.InterHop
import Verif.Model.Kernel
import Verif.Model.Lattice
import Verif.Model.Lindhard
import Verif.Model.LindhardAC
import Verif.Model.LindhardEps
import Verif.Model.Materials
import Verif.Model.Mpi
import Verif.Model.Neighbors
import Verif.Model.Omp
import Verif.Model.OrbId
import Verif.Model.Output
import Verif.Model.Overlap
import Verif.Model.Parallel
import Verif.Model.ParamFit
import Verif.Model.Phosphorene
import Verif.Model.Plot
import Verif.Model.Prim
import Verif.Model.PrintHk
import Verif.Model.PyDict
import Verif.Model.Random
import Verif.Model.Reshape
import Verif.Model.Sample
import Verif.Model.Seeds
import Verif.Model.SkCells
import Verif.Model.SlaterKoster
import Verif.Model.Soc
import Verif.Model.Spin
import Verif.Model.Spiral
import Verif.Model.Super
import Verif.Model.SuperCell
import Verif.Model.Tbpm
import Verif.Model.Tmdc
import Verif.Model.Utils
import Verif.Model.Visual
import Verif.Model.Wannier
import Verif.Model.Z2
import Verif.Proof.Advanced
import Verif.Proof.Analysis
import Verif.Proof.Antimonene
import Verif.Proof.Arpack
import Verif.Proof.Atom
import Verif.Proof.Bessel
import Verif.Proof.Bipartite
import Verif.Proof.BipartiteDiag
import Verif.Proof.Bloch
import Verif.Proof.Build
import Verif.Proof.CellChoice
import Verif.Proof.CellChoiceAC
import Verif.Proof.Csr
import Verif.Proof.Cube
import Verif.Proof.Decoupled
import Verif.Proof.DecoupledSample
import Verif.Proof.Description
import Verif.Proof.DosDensity
import Verif.Proof.DosGap
import Verif.Proof.EnergyZero
import Verif.Proof.Evolution
import Verif.Proof.Fft
import Verif.Proof.Fold
import Verif.Proof.FoldChar
import Verif.Proof.Haydock
import Verif.Proof.HaydockErr
import Verif.Proof.HaydockLocal
import Verif.Proof.HopDict
import Verif.Proof.Hopping
import Verif.Proof.InterHop
import Verif.Proof.Jackson
import Verif.Proof.Kernel
import Verif.Proof.KernelCheb
import Verif.Proof.Layers
import Verif.Proof.Lindhard
import Verif.Proof.LindhardAC
import Verif.Proof.LindhardMesh
import Verif.Proof.LindhardPar
import Verif.Proof.LindhardRun
import Verif.Proof.Merge
import Verif.Proof.Mos2
import Verif.Proof.Mpi
import Verif.Proof.Omp
import Verif.Proof.Order
import Verif.Proof.Overlap
import Verif.Proof.Parallel
import Verif.Proof.ParallelDiag
import Verif.Proof.Passive
import Verif.Proof.Plot
import Verif.Proof.Prim
import Verif.Proof.PrimSync
import Verif.Proof.PrintHk
import Verif.Proof.QuasiFilter
import Verif.Proof.RandomAvg
import Verif.Proof.RandomForm
import Verif.Proof.Reshape
import Verif.Proof.ReshapeCount
import Verif.Proof.Sample
import Verif.Proof.SampleFold
import Verif.Proof.SampleHam
import Verif.Proof.SampleRescale
import Verif.Proof.SkCells
import Verif.Proof.SkSym
import Verif.Proof.SlaterKoster
import Verif.Proof.Soc
import Verif.Proof.Spin
import Verif.Proof.SuperCell
import Verif.Proof.SuperHop
import Verif.Proof.SuperIndex
import Verif.Proof.SuperMod
import Verif.Proof.Tbpm
import Verif.Proof.TbpmCorr
import Verif.Proof.TbpmCur
import Verif.Proof.TbpmKb
import Verif.Proof.TbpmQe
import Verif.Proof.TimeLocal
import Verif.Proof.TimeReversal
import Verif.Proof.Tmdc
import Verif.Proof.TmdcSym
import Verif.Proof.Utils
import Verif.Proof.Wannier
import Verif.Proof.WannierRead
import Verif.Proof.Z2
import Verif.Proof.Z2Order
import Verif.Props.Analysis
import Verif.Props.Antimonene
import Verif.Props.Arpack
import Verif.Props.Atom
import Verif.Props.Base
import Verif.Props.Bipartite
import Verif.Props.BipartiteBands
import Verif.Props.Bloch
import Verif.Props.CellChoice
import Verif.Props.CellChoiceAC
import Verif.Props.Config
import Verif.Props.Conserved
import Verif.Props.Csr
import Verif.Props.Cube
import Verif.Props.Decoupled
import Verif.Props.DecoupledCell
import Verif.Props.DecoupledSample
import Verif.Props.DecoupledTime
import Verif.Props.Description
import Verif.Props.DosDensity
import Verif.Props.DosGap
import Verif.Props.EnergyZero
import Verif.Props.Evolution
import Verif.Props.Extend
import Verif.Props.ExtendSpectrum
import Verif.Props.FermiOp
import Verif.Props.Fft
import Verif.Props.Graphene
import Verif.Props.GrapheneRect
import Verif.Props.GrapheneSp
import Verif.Props.HaydockAvg
import Verif.Props.HaydockErr
import Verif.Props.Holes
import Verif.Props.HopDict
import Verif.Props.Hopping
import Verif.Props.InterHop
import Verif.Props.KaneMele
import Verif.Props.Kernel
import Verif.Props.Kramers
import Verif.Props.Layers
import Verif.Props.Lindhard
import Verif.Props.LindhardAC
import Verif.Props.MagGauge
import Verif.Props.Merge
import Verif.Props.Mos2
import Verif.Props.Mpi
import Verif.Props.MpiExamples
import Verif.Props.Neighbors
import Verif.Props.Omp
import Verif.Props.OrbId
import Verif.Props.Order
import Verif.Props.OrderTime
import Verif.Props.Output
import Verif.Props.Overlap
import Verif.Props.Parallel
import Verif.Props.ParallelRun
import Verif.Props.ParamFit
import Verif.Props.Passive
import Verif.Props.Phosphorene
import Verif.Props.Plot
import Verif.Props.PlotScalar
import Verif.Props.Prim
import Verif.Props.PrintHk
import Verif.Props.QuasiEigen
import Verif.Props.Random
import Verif.Props.RandomAvg
import Verif.Props.Reset
import Verif.Props.Reshape
import Verif.Props.ReshapeFold
import Verif.Props.ReshapeSpectrum
import Verif.Props.Response
import Verif.Props.SameCrystal
import Verif.Props.Sample
import Verif.Props.SampleHam
import Verif.Props.SampleSpectrum
import Verif.Props.Seeds
import Verif.Props.SkCells
import Verif.Props.SlaterKoster
import Verif.Props.Soc
import Verif.Props.Spin
import Verif.Props.Spiral
import Verif.Props.Super
import Verif.Props.SuperBond
import Verif.Props.Symmetry
import Verif.Props.Tbpm
import Verif.Props.Thickness
import Verif.Props.TimeLocal
import Verif.Props.TimeReversal
import Verif.Props.Tmdc
import Verif.Props.UnitarySym
import Verif.Props.Units
import Verif.Props.Utils
import Verif.Props.Visual
import Verif.Props.Wannier
import Verif.Props.Z2
import Verif.Spec.Advanced
import Verif.Spec.Analysis
import Verif.Spec.Antimonene
import Verif.Spec.Arpack
import Verif.Spec.Atom
import Verif.Spec.Bessel
import Verif.Spec.Bipartite
import Verif.Spec.CellChoice
import Verif.Spec.CellMul
import Verif.Spec.Config
import Verif.Spec.Conserved
import Verif.Spec.Crystal
import Verif.Spec.Csr
import Verif.Spec.Cube
import Verif.Spec.Decoupled
import Verif.Spec.Description
import Verif.Spec.DosGap
import Verif.Spec.EnergyZero
import Verif.Spec.Evolution
import Verif.Spec.Fft
import Verif.Spec.HaydockErr
import Verif.Spec.Holes
import Verif.Spec.HopDict
import Verif.Spec.HopMap
import Verif.Spec.Kernel
import Verif.Spec.Layers
import Verif.Spec.Lindhard
import Verif.Spec.LindhardAC
import Verif.Spec.MagGauge
import Verif.Spec.Mos2
import Verif.Spec.Mpi
import Verif.Spec.Neighbors
import Verif.Spec.Omp
import Verif.Spec.Order
import Verif.Spec.Overlap
import Verif.Spec.Parallel
import Verif.Spec.ParamFit
import Verif.Spec.Phosphorene
import Verif.Spec.Plot
import Verif.Spec.Prim
import Verif.Spec.PrintHk
import Verif.Spec.QuasiEigen
import Verif.Spec.RandomAvg
import Verif.Spec.Reshape
import Verif.Spec.Sample
import Verif.Spec.SkCells
import Verif.Spec.SlaterKoster
import Verif.Spec.Soc
import Verif.Spec.Spin
import Verif.Spec.Super
import Verif.Spec.SuperCell
import Verif.Spec.Tbpm
import Verif.Spec.Thickness
import Verif.Spec.TimeReversal
import Verif.Spec.Tmdc
import Verif.Spec.Units
import Verif.Spec.Utils
import Verif.Spec.Wannier
import Verif.Spec.Z2

import Verif.Props.TaskDivision
import Verif.Props.Thread
import Verif.Props.FileIO
import Verif.Props.Collective
import Verif.Props.KmapPack
import Verif.Props.MemCache
import Verif.Props.Commands
import Verif.Props.InputText
import Verif.Props.Citations
import Verif.Props.EnumMap
import Verif.Props.FftSuitable
import Verif.Props.AutoS
import Verif.Props.SpaceGroup
import Verif.Props.Converge
import Verif.Props.Minimize
import Verif.Props.LinSolve
import Verif.Props.Pulay
import Verif.Props.Dynamics
import Verif.Props.Constrain
import Verif.Props.Dump
import Verif.Props.Box
import Verif.Props.BoxField
import Verif.Props.Lattice
import Verif.Props.WignerSeitz
import Verif.Props.PeriodicLookup
import Verif.Props.Kpoints
import Verif.Props.ReduceKmesh
import Verif.Props.Symmetrize
import Verif.Props.MatrixBlock
import Verif.Props.MatrixMul
import Verif.Props.MatrixTiled
import Verif.Props.MatrixReduce
import Verif.Props.Spline
import Verif.Props.Basis
import Verif.Props.CellMap
import Verif.Props.FindMu
import Verif.Props.Smear
import Verif.Props.Fillings
import Verif.Props.Euler
import Verif.Props.Ewald
import Verif.Props.VdwD2
import Verif.Props.VdwD3
import Verif.Props.VdwD3Fails
import Verif.Props.LDA
import Verif.Props.SpinDiag
import Verif.Props.ExCorr
import Verif.Props.GGA
import Verif.Props.GGAScreened
import Verif.Props.States
import Verif.Props.Cavity
import Verif.Props.CavityGrid
import Verif.Props.SoftSphere
import Verif.Props.HalfFFT
import Verif.Props.Spinor
import Verif.Props.ColTransform
import Verif.Props.TetraDos
import Verif.Props.ScaledField
import Verif.Props.LatticeSym
import Verif.Props.LatticeStep
import Verif.Props.Embed
import Verif.Props.LBFGS
import Verif.Props.NonlinearPCM
import Verif.Props.PCMSolve
import Verif.Props.CGConverge
import Verif.Props.MinRes
import Verif.Props.ElecMin
import Verif.Props.MatFunc
import Verif.Props.Ylm
import Verif.Props.Thermostat
import Verif.Props.FindGroup
import Verif.Props.FindGroupKind
import Verif.Props.CoulombKernels
import Verif.Props.CoulombExchange
import Verif.Props.FluidEx
import Verif.Props.FluidTrans
import Verif.Props.FluidMix
import Verif.Props.FluidBulk
import Verif.Props.ExactX
import Verif.Props.Phonon
import Verif.Props.PhononPert
import Verif.Props.Wannier
import Verif.Props.WannierFD
import Verif.Props.Psp
import Verif.Props.DftU
import Verif.Props.IonicExt
import Verif.Props.Vibrations
import Verif.Props.VibrationsModes
import Verif.Props.SCF
import Verif.Props.Davidson
import Verif.Props.DavidsonEdge
import Verif.Props.SCFMore
import Verif.Props.GLLBscGap
import Verif.Props.GLLBsc
import Verif.Props.FCI
import Verif.Props.WannierFDReach
import Verif.Props.Excite
import Verif.Props.Augment
import Verif.Props.ParamList
import Verif.Props.Energies
import Verif.Props.ColBundle
import Verif.Props.Moment
import Verif.Props.CoreOverlap
import Verif.Props.Molecule
import Verif.Props.RadialWeights
import Verif.Props.Unfold
import Verif.Props.Blip

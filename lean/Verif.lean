import Verif.Basic
import Verif.Chain
import Verif.Mps.LinAlg
import Verif.Mps.Model
import Verif.Mps.Factor
import Verif.Mps.Sweep
import Verif.Mps.Position
import Verif.Mps.Oracle
import Verif.Mps.Norm
import Verif.Mps.Ghz
import Verif.Props.Position
import Verif.Mps.Add
import Verif.Mps.Ops
import Verif.Props.Algebra
import Verif.Props.Access
import Verif.Mps.Svd
import Verif.Mps.Gates
import Verif.Mps.Gates2
import Verif.Props.Gates
import Verif.Mps.Trunc
import Verif.Props.Truncate
import Verif.Env.Layer
import Verif.Env.More
import Verif.Env.OpChain
import Verif.Props.Environment
import Verif.Mps.Restore
import Verif.Mps.Measure
import Verif.Props.Measure
import Verif.Mps.Correl
import Verif.Props.Correl
import Verif.Mpo.Apply
import Verif.Mps.Finegrain
import Verif.Props.Apply
import Verif.Engine.Container
import Verif.Engine.Valid
import Verif.Engine.Dmrg
import Verif.Engine.Sim
import Verif.Engine.Shape
import Verif.Engine.Progress
import Verif.Engine.Init
import Verif.Props.Engine
import Verif.Engine.Evolve
import Verif.Engine.Tebd
import Verif.Engine.TebdState
import Verif.Engine.TebdFull
import Verif.Props.Tebd
import Verif.Engine.Tdvp
import Verif.Engine.TdvpLoop
import Verif.Engine.TdvpProgress
import Verif.Props.Tdvp
import Verif.Ham.Local
import Verif.Ham.Spin
import Verif.Ham.Fock
import Verif.Ham.Fermion
import Verif.Ham.Gate
import Verif.Props.Ham
import Verif.Props.Ham2
import Verif.Props.HamGate
import Verif.Ncon.Model
import Verif.Ncon.Sum
import Verif.Ncon.Loop
import Verif.Ncon.Graph
import Verif.Ncon.Check
import Verif.Props.Ncon
import Verif.Utils.Bits
import Verif.Utils.Grid
import Verif.Utils.Step
import Verif.Props.Bits
import Verif.Props.Grid
import Verif.Props.Grad
import Verif.Env.Transfer
import Verif.Props.Transfer
import Verif.Engine.Idmrg
import Verif.Props.Idmrg
import Verif.Mps.Canon
import Verif.Props.Canon
import Verif.Krylov.Lanczos
import Verif.Krylov.Eigh
import Verif.Props.Lanczos
import Verif.Krylov.Exp
import Verif.Props.LanczosTime
import Verif.Krylov.Expokit
import Verif.Props.Expokit
import Verif.Engine.Energy
import Verif.Props.Energy
import Verif.Engine.Integrator
import Verif.Props.Integrator
import Verif.Props.TdvpEnergy
import Verif.Krylov.Sparse
import Verif.Props.Sparse
import Verif.Engine.Solvers
import Verif.Props.DmrgEnergy
import Verif.Engine.TwoSite
import Verif.Engine.Merge
import Verif.Engine.TwoSiteSpec
import Verif.Engine.TwoSiteRun
import Verif.Engine.TwoSiteSim
import Verif.Props.TwoSite
import Verif.Props.TwoSiteTotal
import Verif.Engine.Grow
import Verif.Engine.IdmrgSim
import Verif.Engine.IdmrgCell
import Verif.Engine.Dims
import Verif.Engine.IdmrgDims
import Verif.Props.IdmrgSim
import Verif.Props.IdmrgTotal
import Verif.Props.IdmrgRegauge
import Verif.Props.IdmrgRestart
import Verif.Props.IdmrgRun
import Verif.Mps.RegaugeImps
import Verif.Mps.RegaugeAlg
import Verif.Mps.RegaugeFix
import Verif.Mps.RegaugeEig
import Verif.Mps.RegaugeCore
import Verif.Mps.RegaugeSym
import Verif.Props.RegaugeImps
import Verif.Env.Steady
import Verif.Env.SteadyAlg
import Verif.Env.SteadyCore
import Verif.Env.SteadyMirror
import Verif.Env.SteadyRun
import Verif.Env.SteadyDens
import Verif.Env.SteadyTotal
import Verif.Props.Steady
import Verif.Ham.Boson
import Verif.Ham.Grid
import Verif.Props.Boson
import Verif.Props.LL
import Verif.Props.LLGrid
import Verif.Engine.Periodic
import Verif.Props.Periodic
import Verif.Engine.Vumps
import Verif.Env.VumpsCore
import Verif.Engine.VumpsRun
import Verif.Engine.VumpsEnv
import Verif.Engine.VumpsHerm
import Verif.Engine.VumpsMatch
import Verif.Props.Vumps
import Verif.Props.VumpsRun
import Verif.Props.VumpsFirst
import Verif.Mps.Ortho
import Verif.Props.Ortho
import Verif.Props.OrthoRun
import Verif.Props.OrthoTrunc
import Verif.Engine.Gradient
import Verif.Engine.GradientSym
import Verif.Engine.GradientEnv
import Verif.Props.Gradient
import Verif.Props.GradientStep
import Verif.Engine.TdvpInf
import Verif.Engine.TdvpInfSpec
import Verif.Engine.TdvpInfRun
import Verif.Engine.TdvpInfGauge
import Verif.Props.TdvpInf
import Verif.Engine.Excite
import Verif.Engine.ExciteSpec
import Verif.Engine.ExciteRun
import Verif.Engine.ExciteTerms
import Verif.Props.Excite
import Verif.Engine.TebdError
import Verif.Props.TebdError
import Verif.Mps.TruncErr
import Verif.Props.TruncError
import Verif.Props.OrthoError
import Verif.Mps.Schmidt
import Verif.Props.Schmidt
import Verif.Env.Projected
import Verif.Props.Projected
import Verif.Mps.RegaugeNormal
import Verif.Props.RegaugeTrunc
import Verif.Props.LanEnergy
import Verif.Mps.FromList
import Verif.Props.FromList
import Verif.Utils.Bisect
import Verif.Props.Bisect
import Verif.Mps.Check
import Verif.Props.Check
import Verif.Env.BlockHam
import Verif.Props.BlockHam
import Verif.Mps.FixA0
import Verif.Props.FixA0
import Verif.Mps.CentralC
import Verif.Props.CentralC
import Verif.Props.GateBest
import Verif.Mps.Distribute
import Verif.Props.Distribute
import Verif.Utils.Phase
import Verif.Props.Phase
import Verif.Mps.GradRegauge
import Verif.Props.GradRegauge
import Verif.Env.Fidelity
import Verif.Props.Fidelity
import Verif.Env.PairH
import Verif.Props.PairH
import Verif.Engine.BondSimple
import Verif.Props.BondSimple
import Verif.Ham.Obj
import Verif.Props.MpoObj
import Verif.Mps.RandInit
import Verif.Props.RandInit
import Verif.Env.ApplyH
import Verif.Props.ApplyH
import Verif.Utils.Smooth
import Verif.Props.Smooth
import Verif.Engine.Radau
import Verif.Props.Radau
import Verif.Mps.FourPoint
import Verif.Props.FourPoint

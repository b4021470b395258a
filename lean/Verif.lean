import Verif.Survey.Props
import Verif.Fields.Props
import Verif.Receivers.Props
import Verif.Data.Props
import Verif.Objective.Props
import Verif.Misfit.Props
import Verif.InvProblem.Props
import Verif.Maps.ComposeProps
import Verif.Maps.Elementary
import Verif.Maps.Wires
import Verif.Maps.Inject
import Verif.Maps.Surject
import Verif.HasModel.PropProps
import Verif.HasModel.Setter
import Verif.Optim.Stoppers
import Verif.Optim.LineSearch
import Verif.Optim.Minimize
import Verif.Optim.BFGS
import Verif.Optim.Newton
import Verif.Optim.GNCG
import Verif.Meta.Layout
import Verif.Meta.State
import Verif.Meta.JtJ
import Verif.Meta.Chunks
import Verif.Meta.Parallel
import Verif.Meta.ChunkLayout
import Verif.Directives.Run
import Verif.Directives.Beta
import Verif.Directives.Irls
import Verif.Directives.Joint
import Verif.Directives.Power
import Verif.Directives.Estimate
import Verif.Directives.Precond
import Verif.Directives.Weights
import Verif.Directives.Order
import Verif.Reg.Weights
import Verif.Reg.Value
import Verif.Reg.Lp
import Verif.Reg.Norms
import Verif.Reg.Alphas
import Verif.Utils.Angles
import Verif.Utils.Probing
import Verif.Utils.Bounds
import Verif.Utils.Blocks
import Verif.Utils.Validators
import Verif.Maps.EffectiveMedium
import Verif.Jacobian
import Verif.Flow.Richards
import Verif.Flow.Empirical
import Verif.JacobianK
import Verif.PDE.Mass
import Verif.DC.Sim
import Verif.DC.Mini
import Verif.DC.Cache
import Verif.DC.Sim2D
import Verif.DC.Settings2D
import Verif.JacobianM
import Verif.EM.Mass
import Verif.FDEM.Survey
import Verif.FDEM.Sim
import Verif.FDEM.EB
import Verif.FDEM.HJ
import Verif.FDEM.Maxwell
import Verif.FDEM.Sources
import Verif.FDEM.Columns
import Verif.FDEM.Cases
import Verif.TDEM.Sim
import Verif.TDEM.EB
import Verif.TDEM.HJ
import Verif.TDEM.Maxwell
import Verif.TDEM.Laws
import Verif.TDEM.Solvable
import Verif.TDEM.Cases
import Verif.TDEM.Waveforms
import Verif.TDEM.Piecewise
import Verif.TDEM.Sources
import Verif.EM.SourceCache
import Verif.Reg.Calculus
import Verif.Reg.CrossGradient
import Verif.Reg.Joint
import Verif.Reg.FullGradient
import Verif.Reg.Vector
import Verif.Reg.Mesh
import Verif.Reg.Radian
import Verif.PF.Layout
import Verif.PF.Kernel
import Verif.PF.Sens
import Verif.PF.Cache
import Verif.Directives.Save
import Verif.Directives.Sim
import Verif.NSEM.Receivers
import Verif.NSEM.Props
import Verif.NSEM.Deriv
import Verif.NSEM.Sim
import Verif.Seismic.Ray
import Verif.Linear.Sim
import Verif.Fields.Time
import Verif.DC.IP
import Verif.DC.IPCache
import Verif.DC.Geometry
import Verif.DC.Electrodes
import Verif.Utils.Topo
import Verif.DC.Lines
import Verif.DC.SIP
import Verif.DC.SIPState
import Verif.DC.SelfPotential
import Verif.Maps.Parametric
import Verif.Maps.ParametricInterface
import Verif.Maps.ParametricState
import Verif.EM.LineCurrent
import Verif.EM.LineFaces
import Verif.EM.LineTree
import Verif.Reg.PGI
import Verif.Reg.PGIFull
import Verif.Reg.PGIState
import Verif.Utils.GMM
import Verif.Maps.Clustering
import Verif.Directives.PGI
import Verif.NSEM.Layered
import Verif.NSEM.LayeredData
import Verif.VRM.Waveforms
import Verif.VRM.LogUniform
import Verif.VRM.Sources
import Verif.VRM.Geometry
import Verif.VRM.Simulation
import Verif.EM.Hankel
import Verif.EM.Layered1D
import Verif.EM.Relaxation
import Verif.EM.Discretization
import Verif.DC.Layered
import Verif.Meta.Dask
import Verif.PF.EquivalentLayer
import Verif.Utils.Weights
import Verif.Utils.SurfaceLayer
import Verif.Maps.Spherical
import Verif.Maps.Between
import Verif.IO.PotentialFields
import Verif.DC.Abmn
import Verif.IO.Xyz
import Verif.IO.Dcip
import Verif.NSEM.Primary
import Verif.NSEM.Analytic
import Verif.PF.Spheres
import Verif.DC.Analytic
import Verif.EM.Curl
import Verif.TDEM.Dipoles
import Verif.FDEM.Dipoles
import Verif.FDEM.Dipolar
import Verif.EM.Wave
import Verif.FDEM.Casing
import Verif.NSEM.Earth
import Verif.NSEM.Records
import Verif.NSEM.DataUtils
import Verif.NSEM.Edi
import Verif.Utils.Counter
import Verif.IO.General
import Verif.IO.Drivers
import Verif.DC.Locations
import Verif.DC.Profile
import Verif.DC.LineID
import Verif.PF.Numba
import Verif.PF.Differential
import Verif.TDEM.Convolve
import Verif.DC.Pseudo
import Verif.Utils.RandomModel
import Verif.PF.ActiveNodes
import Verif.NSEM.Efields1D
import Verif.Utils.Hooks
import Verif.Utils.ModelCache
import Verif.PF.DaskOperator
import Verif.DC.DaskDiag
import Verif.DC.Topography
import Verif.DC.SipMappings
import Verif.Utils.GMMFit
import Verif.Optim.Phases
import Verif.Utils.Deprecate
import Verif.Utils.GMMEstimate
import Verif.Flow.Soils
import Verif.Objective.Find
import Verif.Maps.EffectiveConverge
import Verif.PDE.Solvers
import Verif.Maps.EffectiveAligned
import Verif.Utils.GMMStart
import Verif.DC.Currents
import Verif.DC.Wenner
import Verif.DC.Planes
import Verif.Utils.Plot2D
import Verif.Utils.LayerPlot
import Verif.Utils.Tables
import Verif.DC.Pseudosection
import Verif.NSEM.StationPlot
import Verif.VRM.Assignments
import Verif.Reg.TotalGradient

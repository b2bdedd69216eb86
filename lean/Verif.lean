import Verif.Model.Basic
import Verif.Model.Mix
import Verif.Model.Containers
import Verif.Model.Atoms
import Verif.Lemmas.Containers
import Verif.Lemmas.Atoms
import Verif.Props.Containers
import Verif.Props.Atoms
import Verif.Model.KPoints
import Verif.Spec.KPoints
import Verif.Lemmas.KPoints
import Verif.Lemmas.KMesh
import Verif.Props.KPoints
import Verif.Props.KSampling
import Verif.Props.Motion
import Verif.Model.Occupations
import Verif.Props.Occupations
import Verif.Model.Mixers
import Verif.Model.Solver
import Verif.Lemmas.Mixers
import Verif.Props.Mixers
import Verif.Props.MixersOptimal
import Verif.Model.Elements
import Verif.Lemmas.Elements
import Verif.Props.Elements
import Verif.Model.Density
import Verif.Props.Density
import Verif.Model.Neighbors
import Verif.Lemmas.Neighbors
import Verif.Props.Neighbors
import Verif.Model.Coulomb
import Verif.Lemmas.PairSum
import Verif.Lemmas.Coulomb
import Verif.Props.Coulomb
import Verif.Model.Electrostatics
import Verif.Props.Electrostatics
import Verif.Model.Calculator
import Verif.Model.Timing
import Verif.Spec.Calculator
import Verif.Lemmas.Calculator
import Verif.Lemmas.CalcCache
import Verif.Lemmas.CalcRuns
import Verif.Props.Calculator
import Verif.Lemmas.Timing
import Verif.Lemmas.TimingTree
import Verif.Props.Timing
import Verif.Model.Helpers
import Verif.Props.Helpers
import Verif.Props.Rotations
import Verif.Model.Auxil
import Verif.Props.Auxil
import Verif.Model.SlaterKoster
import Verif.Spec.SlaterKoster
import Verif.Lemmas.SlaterKoster
import Verif.Lemmas.SkRotation
import Verif.Props.SlaterKoster
import Verif.Props.SkGradient
import Verif.Model.OrbitalRotation
import Verif.Lemmas.OrbitalRotation
import Verif.Props.OrbitalRotation
import Verif.Model.Matrices
import Verif.Spec.Matrices
import Verif.Lemmas.Matrices
import Verif.Lemmas.MatricesClosed
import Verif.Props.Matrices
import Verif.Props.MatricesContainers
import Verif.Props.MatricesRaise
import Verif.Lemmas.MatricesGradient
import Verif.Lemmas.MatricesVel
import Verif.Props.MatricesGradient
import Verif.Model.Splines
import Verif.Spec.Splines
import Verif.Lemmas.Splines
import Verif.Props.Splines
import Verif.Model.Interpolation
import Verif.Props.Interpolation
import Verif.Model.Tables
import Verif.Props.TableFiles
import Verif.Props.Tables
import Verif.Model.PairTerms
import Verif.Spec.PairTerms
import Verif.Lemmas.PairTerms
import Verif.Props.Repulsion
import Verif.Spec.PairPotential
import Verif.Props.PairPotential
import Verif.Props.VdW
import Verif.Lemmas.SolidHarmonics
import Verif.Model.Multipole
import Verif.Spec.Multipole
import Verif.Lemmas.Multipole
import Verif.Lemmas.MultipoleShift
import Verif.Lemmas.MultipoleRotation
import Verif.Props.Multipole
import Verif.Lemmas.MultipoleLocal
import Verif.Lemmas.MultipoleTaylor
import Verif.Lemmas.Laplace
import Verif.Lemmas.LaplaceSeries
import Verif.Props.MultipoleLocal
import Verif.Lemmas.Boxes
import Verif.Lemmas.LaplaceTwo
import Verif.Lemmas.MultipoleFar
import Verif.Model.MultipoleExpansion
import Verif.Spec.Telescope
import Verif.Lemmas.Telescope
import Verif.Props.Telescope
import Verif.Props.TelescopeCases
import Verif.Props.MultipoleFar
import Verif.Model.Analysis
import Verif.Spec.Analysis
import Verif.Spec.Dos
import Verif.Spec.Covalent
import Verif.Lemmas.Analysis
import Verif.Props.Analysis
import Verif.Props.Broaden
import Verif.Props.Dos
import Verif.Props.Bonds
import Verif.Props.Covalent
import Verif.Model.LinearResponse
import Verif.Props.LinearResponse
import Verif.Model.Text
import Verif.Model.Skf
import Verif.Spec.Text
import Verif.Spec.Skf
import Verif.Lemmas.Text
import Verif.Lemmas.Skf
import Verif.Props.Records
import Verif.Props.SkfRepulsion
import Verif.Props.SkfTables
import Verif.Model.Native
import Verif.Model.ParamUtil
import Verif.Spec.KeyFile
import Verif.Spec.ParamUtil
import Verif.Lemmas.KeyFile
import Verif.Props.ParamUtil
import Verif.Props.Shells
import Verif.Props.KeyFile
import Verif.Props.KeyFileMore
import Verif.Model.AtomSolver
import Verif.Spec.AtomSolver
import Verif.Props.Xc
import Verif.Props.RadialGrid
import Verif.Props.RadialStates
import Verif.Props.AtomStates
import Verif.Model.SlakoTable
import Verif.Spec.SlakoTable
import Verif.Lemmas.SegmentArea
import Verif.Props.SlakoAngular
import Verif.Props.SlakoGrid
import Verif.Props.SlakoMels
import Verif.Model.ParWriter
import Verif.Props.ParWriter
import Verif.Model.Wavefunctions
import Verif.Spec.SphericalHarmonics
import Verif.Lemmas.Legendre
import Verif.Props.SphericalHarmonics
import Verif.Props.AngularParts
import Verif.Model.Grids
import Verif.Spec.Grids
import Verif.Props.GridPoints
import Verif.Props.GridOrbitals
import Verif.Props.GridDensity
import Verif.Model.ContainerSet
import Verif.Spec.ContainerSet
import Verif.Props.ContainerSet
import Verif.Props.ContainerScale
import Verif.Model.Environment
import Verif.Props.Environment
import Verif.Model.Dielectric
import Verif.Props.Dielectric
import Verif.Model.Fitting
import Verif.Props.Fitting
import Verif.Props.FittingFit
import Verif.Props.FittingPar
import Verif.Model.Systems
import Verif.Props.Systems
import Verif.Model.Nanotube
import Verif.Spec.Nanotube
import Verif.Props.Nanotube
import Verif.Props.NanotubeChiral
import Verif.Props.NanotubeCell
import Verif.Model.Database
import Verif.Spec.Database
import Verif.Lemmas.Database
import Verif.Props.Database
import Verif.Model.Ask
import Verif.Spec.Ask
import Verif.Lemmas.Ask
import Verif.Props.Ask
import Verif.Model.Ewald
import Verif.Spec.Ewald
import Verif.Lemmas.EwaldKernel
import Verif.Lemmas.EwaldLattice
import Verif.Lemmas.EwaldOrtho
import Verif.Lemmas.EwaldMore
import Verif.Props.Ewald
import Verif.Model.Saddle
import Verif.Props.Saddle
import Verif.Model.Eigen
import Verif.Spec.Eigen
import Verif.Lemmas.Eigen
import Verif.Props.Eigen
import Verif.Model.Bands
import Verif.Spec.Bands
import Verif.Lemmas.Bands
import Verif.Lemmas.BandMesh
import Verif.Props.Bands
import Verif.Model.ElementFiles
import Verif.Spec.ElementFiles
import Verif.Lemmas.ElementFiles
import Verif.Props.ElementFiles
import Verif.Model.TotalEnergy
import Verif.Spec.TotalEnergy
import Verif.Lemmas.HellmannFeynman
import Verif.Lemmas.TotalForces
import Verif.Lemmas.TotalPath
import Verif.Props.TotalForces
import Verif.Props.TotalForcesSmearing
import Verif.Model.GroundState
import Verif.Lemmas.TurnedMatrices
import Verif.Lemmas.TurnedBlocks
import Verif.Lemmas.TurnedStates
import Verif.Lemmas.TurnedScf
import Verif.Lemmas.TurnedGeometry
import Verif.Spec.Invariance
import Verif.Props.Invariance
import Verif.Model.LibXc
import Verif.Spec.LibXc
import Verif.Lemmas.LibXc
import Verif.Props.LibXc
import Verif.Model.Affinity
import Verif.Props.Affinity
import Verif.Model.FdForces
import Verif.Props.FdForces
import Verif.Lemmas.NetForce
import Verif.Props.NetForce
import Verif.Lemmas.Turning
import Verif.Lemmas.TurningMatrices
import Verif.Lemmas.TurningForces
import Verif.Spec.Torque
import Verif.Props.Torque
import Verif.Model.SameContainer
import Verif.Spec.SameContainer
import Verif.Props.SameContainer
import Verif.Model.Barriers
import Verif.Spec.Barriers
import Verif.Props.Barriers
import Verif.Spec.Unfold
import Verif.Lemmas.Unfold
import Verif.Lemmas.UnfoldStates
import Verif.Lemmas.UnfoldScf
import Verif.Lemmas.UnfoldRun
import Verif.Spec.Supercell
import Verif.Lemmas.Supercell
import Verif.Props.Supercell
import Verif.Props.SupercellExample
import Verif.Spec.Sector
import Verif.Lemmas.Sector
import Verif.Props.Sector
import Verif.Props.SectorExample
import Verif.Spec.CopyForces
import Verif.Lemmas.UnfoldForces
import Verif.Lemmas.CopyForces
import Verif.Props.CopyForces
import Verif.Spec.Renumber
import Verif.Lemmas.Renumber
import Verif.Props.Renumber
import Verif.Spec.Apart
import Verif.Lemmas.Apart
import Verif.Lemmas.ApartRun
import Verif.Lemmas.ApartMain
import Verif.Props.Apart
import Verif.Spec.TimeReversal
import Verif.Lemmas.TimeReversal
import Verif.Lemmas.TimeReversalRun
import Verif.Lemmas.TimeReversalMesh
import Verif.Props.TimeReversal
import Verif.Lemmas.Uniqueness
import Verif.Lemmas.UniquenessRun
import Verif.Lemmas.GaussianCharges
import Verif.Props.Uniqueness
import Verif.Lemmas.Damped
import Verif.Spec.Damping
import Verif.Lemmas.ChargeResponse
import Verif.Lemmas.DampedRun
import Verif.Lemmas.DampedLoop
import Verif.Props.Damping
import Verif.Spec.Accuracy
import Verif.Lemmas.Accuracy
import Verif.Lemmas.ForceAccuracy
import Verif.Props.Accuracy

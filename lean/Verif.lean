import Verif.Model.Py
import Verif.Model.Lattice
import Verif.Model.Base
import Verif.Spec.Occupation
import Verif.Lemmas.Comb
import Verif.Lemmas.Occ
import Verif.Lemmas.Basis
import Verif.Lemmas.Target
import Verif.Lemmas.Det
import Verif.Lemmas.Vect
import Verif.Props.Basis
import Verif.Props.Det
import Verif.Spec.Geometry
import Verif.Spec.Lattice
import Verif.Lemmas.Lattice
import Verif.Lemmas.Linear
import Verif.Props.Lattice
import Verif.Props.Linear
import Verif.Lemmas.Rotation
import Verif.Props.Rotation
import Verif.Model.Interactions
import Verif.Spec.Hamiltonian
import Verif.Lemmas.Images
import Verif.Lemmas.Images2
import Verif.Lemmas.Terms
import Verif.Lemmas.Repulsion
import Verif.Props.Interactions
import Verif.Lemmas.Ham
import Verif.Lemmas.HamSym
import Verif.Lemmas.HamLin
import Verif.Props.Hamiltonian
import Verif.Lemmas.Dynamic
import Verif.Props.Dynamic
import Verif.Model.Spin
import Verif.Spec.Spin
import Verif.Spec.TableSize
import Verif.Lemmas.Spin
import Verif.Lemmas.SpinOp
import Verif.Lemmas.HoleOrder
import Verif.Lemmas.SpinPos
import Verif.Props.Spin
import Verif.Model.Observables
import Verif.Spec.Observables
import Verif.Lemmas.Observables
import Verif.Lemmas.Display
import Verif.Props.Observables
import Verif.Model.Davidson
import Verif.Spec.Davidson
import Verif.Lemmas.Lowest
import Verif.Lemmas.Davidson
import Verif.Lemmas.DavidsonLoop
import Verif.Lemmas.Corrections
import Verif.Lemmas.ExactLib
import Verif.Props.Davidson
import Verif.Props.Davidson2
import Verif.Props.GramSchmidt
import Verif.Model.IO
import Verif.Lemmas.IO
import Verif.Props.IO
import Verif.Model.Embedding
import Verif.Spec.Embedding
import Verif.Lemmas.EmbedSym
import Verif.Lemmas.EmbedNeel
import Verif.Props.Embedding
import Verif.Lemmas.EmbedRot
import Verif.Props.Embedding2
import Verif.Lemmas.EmbedExchange
import Verif.Props.Embedding3
import Verif.Model.PostProcessing
import Verif.Props.PostProcessing
import Verif.Props.PostProcessing2
import Verif.Props.Embedding4
import Verif.Model.Clusters
import Verif.Props.Clusters
import Verif.Props.Embedding5
import Verif.Lemmas.Sector
import Verif.Model.Initial
import Verif.Props.Initial
import Verif.Model.CPythonSet
import Verif.Model.CPythonOrder
import Verif.Lemmas.PyTable
import Verif.Lemmas.CPythonSet
import Verif.Props.SetOrder
import Verif.Props.DavidsonSpace
import Verif.Props.OuterDisplay
import Verif.Model.Phase
import Verif.Props.Phase
import Verif.Props.Multiplets
import Verif.Model.Files
import Verif.Props.Files
import Verif.Props.SpinZ
import Verif.Props.EmbeddingTotal
import Verif.Model.Plots
import Verif.Props.Plots
import Verif.Spec.Symmetry
import Verif.Props.Symmetry
import Verif.Props.DominantPairs
import Verif.Props.DavidsonStored
import Verif.Props.DynamicExact
import Verif.Props.UnpolarisedField
import Verif.Lemmas.NotSquare
import Verif.Props.NotSquare
import Verif.Lemmas.ReversedDynamic
import Verif.Props.ReversedDynamic
import Verif.Props.ExactConditions
import Verif.Props.LowestFound
import Verif.Props.SectorKept
import Verif.Props.Deflation
import Verif.Lemmas.Interlacing
import Verif.Props.RitzValues
import Verif.Model.Dependance
import Verif.Lemmas.Dependance
import Verif.Props.Dependance
import Verif.Props.HoppingSign
import Verif.Props.Ferromagnet
import Verif.Spec.SecondOrder
import Verif.Lemmas.Restricted
import Verif.Lemmas.SecondOrder
import Verif.Lemmas.SecondOrder2
import Verif.Lemmas.SecondOrder3
import Verif.Lemmas.SecondOrder4
import Verif.Lemmas.SecondOrder5
import Verif.Props.Embedding6
import Verif.Model.PhaseAxes
import Verif.Props.PhaseAxes
import Verif.Spec.Marshall
import Verif.Lemmas.Perron
import Verif.Lemmas.Connected
import Verif.Lemmas.Marshall
import Verif.Props.LiebMattis
import Verif.Props.FerroUnique
import Verif.Model.Csr
import Verif.Spec.Csr
import Verif.Props.Csr
import Verif.Model.Sweep
import Verif.Props.Sweep
import Verif.Model.GeneratePlots
import Verif.Props.GeneratePlots
import Verif.Lemmas.Weyl
import Verif.Props.Couplings
import Verif.Props.EmbeddingShift
import Verif.Model.MainRun
import Verif.Props.MainRun
import Verif.Model.SmallLattice
import Verif.Props.SmallLattice
import Verif.Props.DetRestricted
import Verif.Lemmas.SimpleSpectrum
import Verif.Lemmas.RealEigh
import Verif.Props.JoinedBlocks
import Verif.Lemmas.FreeHole
import Verif.Props.FreeHole
import Verif.Lemmas.SumRule
import Verif.Props.SumRule
import Verif.Lemmas.HoleMoves
import Verif.Lemmas.Row
import Verif.Props.MovingHole
import Verif.Lemmas.Slater
import Verif.Lemmas.RowStates
import Verif.Props.RowSpectrum
import Verif.Model.StrictDavidson
import Verif.Lemmas.FarConfs
import Verif.Props.Denominators
import Verif.Spec.Fermi
import Verif.Lemmas.Fermi
import Verif.Lemmas.FermiSites
import Verif.Lemmas.FermiGauge
import Verif.Lemmas.FermiCycle
import Verif.Lemmas.FermiWalks
import Verif.Props.Fermions
import Verif.Model.PhasePictures
import Verif.Props.PhasePictures
import Verif.Props.StaleSpin
import Verif.Model.StaleSpin
import Verif.Props.EmbeddingPictures
import Verif.Lemmas.OwnEigenvalues
import Verif.Props.OwnEigenvalues
import Verif.Spec.Stored
import Verif.Lemmas.Stored
import Verif.Lemmas.StoredCount
import Verif.Lemmas.TwoBonds
import Verif.Props.Stored
import Verif.Lemmas.Glue
import Verif.Lemmas.TwoParts
import Verif.Props.Extensive
import Verif.Tests.Cases
import Verif.Tests.Repo
import Verif.Model.BlocksRun
import Verif.Lemmas.EmbedKeep
import Verif.Props.BlocksRun
import Verif.Props.BlocksShift
import Verif.Props.DavidsonGuess
import Verif.Model.DependancePictures
import Verif.Props.DependancePictures
import Verif.Props.ExactFiles
import Verif.Props.ExactEmbedding
import Verif.Props.LevelDensity
import Verif.Props.LowestExact
import Verif.Props.ExactSaved
import Verif.Props.SpinCommutes
import Verif.Props.ExactPlots
import Verif.Props.MultipletDensity
import Verif.Props.SpinLevels
import Verif.Props.RisingCurves
import Verif.Props.NeelField
import Verif.Props.NeelDescent
import Verif.Props.BlocksMean
import Verif.Props.BlocksDescent
import Verif.Props.BlocksMirror

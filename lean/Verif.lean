import Verif.Model.Prelude
import Verif.Lemmas.Prelude
import Verif.Model.Nuclide
import Verif.Lemmas.Nuclide
import Verif.Lemmas.NuclideStr
import Verif.Props.Nuclide
import Verif.Lemmas.Rng
import Verif.Props.Rng
import Verif.Props.XSPacket
import Verif.Props.Exception
import Verif.Lemmas.AceBinary
import Verif.Props.AceBinary
import Verif.Lemmas.Interp
import Verif.Props.Interp
import Verif.Lemmas.Tab1D
import Verif.Props.Tab1D
import Verif.Lemmas.Tab1DHeap
import Verif.Props.Tab1DHeap
import Verif.Props.Func1D
import Verif.Props.Linearize
import Verif.Props.EnergyGrid
import Verif.Props.CrossSection
import Verif.Lemmas.PCTable
import Verif.Props.PCTable
import Verif.Model.Angle
import Verif.Lemmas.Legendre
import Verif.Props.Legendre
import Verif.Props.Angle
import Verif.Model.Energy
import Verif.Spec.Grid
import Verif.Props.Bracket
import Verif.Props.Energy
import Verif.Props.Spectra
import Verif.Model.Frame
import Verif.Spec.Frame
import Verif.Props.Frame
import Verif.Props.FrameAngle
import Verif.Model.Elastic
import Verif.Props.Elastic
import Verif.Props.DBRC
import Verif.Props.Library
import Verif.Props.Serpent
import Verif.Model.STNeutron
import Verif.Spec.STNeutron
import Verif.Lemmas.STNeutron
import Verif.Props.STNeutron
import Verif.Lemmas.XSEval
import Verif.Model.URR
import Verif.Props.URR
import Verif.Model.TabRead
import Verif.Model.Fission
import Verif.Spec.TabRead
import Verif.Props.TabRead
import Verif.Props.Fission
import Verif.Model.Mixture
import Verif.Props.Mixture
import Verif.Model.CMDist
import Verif.Props.Jacobian
import Verif.Props.Target
import Verif.Props.Density
import Verif.Model.Kalbach
import Verif.Lemmas.Joint
import Verif.Props.Kalbach
import Verif.Props.EnergyAngle
import Verif.Props.UnitBase
import Verif.Model.Thermal
import Verif.Props.Coherent
import Verif.Props.Thermal
import Verif.Props.ThermalCont
import Verif.Props.ThermalLaw
import Verif.Spec.Order
import Verif.Props.NuclideOrder
import Verif.Props.Tab1DVerify
import Verif.Props.AceText
import Verif.Props.Directory
import Verif.Props.Xsdir
import Verif.Model.AceLaws
import Verif.Spec.AceLaws
import Verif.Props.AceLaws
import Verif.Props.AceTables
import Verif.Props.BinDensity
import Verif.Props.Reaction
import Verif.Model.NucAce
import Verif.Spec.NucAce
import Verif.Lemmas.NucAce
import Verif.Lemmas.NucLookup
import Verif.Props.NucAce
import Verif.Props.NucAccept
import Verif.Spec.Law
import Verif.Lemmas.Law
import Verif.Lemmas.GammaLaw
import Verif.Lemmas.WattLaw
import Verif.Lemmas.BetaLaw
import Verif.Props.Law
import Verif.Props.NBodyLaw
import Verif.Lemmas.LegBound
import Verif.Props.LegendreLaw
import Verif.Lemmas.Draws
import Verif.Spec.UrrAce
import Verif.Props.UrrAce
import Verif.Props.SerpentRow
import Verif.Lemmas.Reject
import Verif.Lemmas.Compose
import Verif.Props.AngleLaw
import Verif.Props.EnergyLaw
import Verif.Spec.Joint
import Verif.Props.JointLaw
import Verif.Lemmas.JointDraw
import Verif.Props.KalbachLaw
import Verif.Props.EATableLaw
import Verif.Props.TabEALaw
import Verif.Props.UrrValue
import Verif.Spec.ThermalFile
import Verif.Props.ThermalRead
import Verif.Props.FrameLaw
import Verif.Props.ReactionLaw
import Verif.Spec.Velocity
import Verif.Lemmas.Loop
import Verif.Lemmas.Sphere
import Verif.Props.SvtLaw
import Verif.Props.DbrcLaw
import Verif.Props.ElasticLaw
import Verif.Lemmas.Rotate
import Verif.Lemmas.Balance
import Verif.Lemmas.Collision
import Verif.Props.GasLaw
import Verif.Props.Equilibrium
import Verif.Model.XsdirFile
import Verif.Props.XsdirFile
import Verif.Lemmas.Discrete
import Verif.Props.ThermalDist
import Verif.Props.ThermalContLaw
import Verif.Props.BinLaw
import Verif.Props.Float
import Verif.Props.FloatGrid
import Verif.Props.FloatKin
import Verif.Model.FloatTab
import Verif.Props.FloatTab
import Verif.Model.Threads
import Verif.Props.Threads
import Verif.Spec.ReadSample
import Verif.Lemmas.NoUB
import Verif.Props.ReadSample
import Verif.Props.ReadCosine
import Verif.Props.ReadThermal
import Verif.Props.AceBinarySafe
import Verif.Model.Ieee
import Verif.Spec.Ieee
import Verif.Lemmas.Ieee
import Verif.Lemmas.IeeeSafe
import Verif.Props.Ieee
import Verif.Props.ReadEnergy
import Verif.Props.ReadTotal
import Verif.Spec.Many
import Verif.Lemmas.Many
import Verif.Props.Many
import Verif.Model.Spndl
import Verif.Spec.Tool
import Verif.Props.Spndl
import Verif.Model.LibraryNuc
import Verif.Spec.LibraryNuc
import Verif.Props.LibraryNuc
import Verif.Spec.ReadDensity
import Verif.Props.ReadDensity
import Verif.Model.PromptSpectrum
import Verif.Spec.PromptSpectrum
import Verif.Props.PromptSpectrum
import Verif.Spec.Support
import Verif.Props.Support
import Verif.Model.FloatBase
import Verif.Props.FloatBase
import Verif.Spec.Replay
import Verif.Lemmas.Replay
import Verif.Props.Replay
import Verif.Spec.Calls
import Verif.Lemmas.MRes
import Verif.Props.Calls
import Verif.Props.FloatExact
import Verif.Props.CallLaw
import Verif.Props.IeeeRules
import Verif.Model.AceObj
import Verif.Spec.AceObj
import Verif.Props.AceObj
import Verif.Model.EnergyGridObj
import Verif.Props.EnergyGridObj
import Verif.Model.Fpu
import Verif.Spec.Fpu
import Verif.Props.Fpu
import Verif.Model.Sopenmc
import Verif.Spec.Sopenmc
import Verif.Props.Sopenmc
import Verif.Spec.FpuKalbach
import Verif.Lemmas.FloatSqrt
import Verif.Props.FpuKalbach
import Verif.Model.ElasticObj
import Verif.Spec.ElasticObj
import Verif.Lemmas.ElasticObj
import Verif.Props.ElasticObj
import Verif.Model.AceCrash
import Verif.Spec.AceCrash
import Verif.Lemmas.AceCrash
import Verif.Props.AceCrash
import Verif.Model.Python
import Verif.Props.Python
import Verif.Spec.AngleBins
import Verif.Props.AngleBins
import Verif.Props.AngleMix
import Verif.Model.FloatThermal
import Verif.Lemmas.FloatCosine
import Verif.Props.FloatThermal
import Verif.Model.FloatPacket
import Verif.Props.FloatPacket
import Verif.Model.FloatMixture
import Verif.Props.FloatMixture
import Verif.Model.FloatBins
import Verif.Props.FloatBins
import Verif.Model.FloatInelastic
import Verif.Props.FloatInelastic
import Verif.Model.FloatSpectra
import Verif.Props.FloatSpectra
import Verif.Model.FloatFunc
import Verif.Props.FloatFunc
import Verif.Model.FloatJoint
import Verif.Props.FloatJoint
import Verif.Props.BraggXs
import Verif.Props.MeanElastic

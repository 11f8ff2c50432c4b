import Verif.Props.Deck
import Verif.Props.Stream
import Verif.Props.Runner
import Verif.Props.Io
import Verif.Props.Utils
import Verif.Props.Lifecycle
import Verif.Props.Grad
import Verif.Props.MlLog
import Verif.Props.Density
import Verif.Props.Norm
import Verif.Props.Grid
import Verif.Props.Fft
import Verif.Props.Krook
import Verif.Props.Integrator
import Verif.Props.Pic
import Verif.Props.Wave
import Verif.Props.Driver
import Verif.Props.PicLoad
import Verif.Props.CubicSpline
import Verif.Props.Vfp
import Verif.Props.VfpCollisions
import Verif.Props.HeatFlux
import Verif.Props.Vfp2d
import Verif.Props.Vfp2dStep
import Verif.Props.Vfp2dPoisson
import Verif.Props.Vfp2dOhm
import Verif.Props.Vfp2dFilter
import Verif.Props.Vfp2dRun
import Verif.Props.Vlasov2dMaxwell
import Verif.Props.Vlasov2dKinetic
import Verif.Props.Vlasov2dCollide
import Verif.Props.Vlasov2dRun
import Verif.Props.HermiteLinear
import Verif.Props.HermiteForce
import Verif.Props.HermiteRun
import Verif.Props.HermiteConserve
import Verif.Props.HermiteExtra
import Verif.Props.HermiteOptions
import Verif.Props.HermiteStrang
import Verif.Props.HLBasis
import Verif.Props.HLLinear
import Verif.Props.HLForce
import Verif.Props.HLCayley
import Verif.Props.HLSplit
import Verif.Props.HLBgk
import Verif.Props.HLDougherty
import Verif.Props.HLDoughertyL
import Verif.Props.HLConserve
import Verif.Props.HLEquilibrium
import Verif.Props.HLInit
import Verif.Props.HLSaved
import Verif.Props.TwoFluid
import Verif.Props.TwoFluidLinear
import Verif.Props.TwoFluidExtra
import Verif.Props.Electrostatic
import Verif.Props.Vlasov2V
import Verif.Props.Vlasov2VGrid
import Verif.Props.Vlasov2VErf
import Verif.Props.Vlasov2VCyl
import Verif.Props.SpectraxForce
import Verif.Props.SpectraxLinear
import Verif.Props.SpectraxRun
import Verif.Props.SpectraxConserve
import Verif.Props.SpectraxGauss
import Verif.Props.SpectraxReal
import Verif.Props.SpectraxInit
import Verif.Props.SpectraxEnergy
import Verif.Props.SpectraxExtra
import Verif.Props.LpseWave
import Verif.Props.LpseTpd
import Verif.Props.LpseFilter
import Verif.Props.LpsePump
import Verif.Props.LpseDeck
import Verif.Props.LpseSymmetry
import Verif.Props.Speckle
import Verif.Props.LpseExamples
import Verif.Props.SpectraxMore
import Verif.Props.LpseMore
import Verif.Props.Beta
import Verif.Props.BetaNewton
import Verif.Props.BetaClosure
import Verif.Props.BetaMore
import Verif.Props.VfpInit
import Verif.Props.VfpFile
import Verif.Props.VfpSetup
import Verif.Props.VlasovInit
import Verif.Props.VlasovSetup
import Verif.Props.VlasovSave
import Verif.Props.VlasovSample
import Verif.Props.VlasovSection
import Verif.Props.VlasovSpectrum
import Verif.Props.OsirisImage
import Verif.Props.OsirisSpectrum
import Verif.Props.OsirisFields
import Verif.Props.OsirisDeck
import Verif.Props.OsirisUnits
import Verif.Props.OsirisPost
import Verif.Props.Vfp2dPotential
import Verif.Props.Vfp2dRecon
import Verif.Props.Vfp2dPlots
import Verif.Props.Vfp2dInit
import Verif.Props.SpectraxWaves
import Verif.Props.SpectraxMetrics
import Verif.Props.Lineouts
import Verif.Props.SpeckleSeries
import Verif.Props.OsirisSeries
import Verif.Props.OsirisHist
import Verif.Props.OsirisCanned
import Verif.Props.OsirisProfiles
import Verif.Props.OsirisLabels
import Verif.Model.VlasovShard
import Verif.Props.VlasovShard
import Verif.Props.VlasovRun
import Verif.Props.CollisionRow
import Verif.Props.CollisionMirror
import Verif.Props.VlasovSymmetry
import Verif.Props.VlasovSymmetryRun
import Verif.Props.VlasovSave2
import Verif.Props.Vlasov2dSymmetry
import Verif.Props.PicSymmetry
import Verif.Props.VlasovParts
import Verif.Model.VlasovDeck
import Verif.Props.VlasovDeck
import Verif.Model.Vlasov2dDeck
import Verif.Props.Vlasov2dDeck
import Verif.Model.Vlasov2VDeck
import Verif.Props.Vlasov2VDeck
import Verif.Model.PicDeck
import Verif.Props.PicDeck
import Verif.Model.TfDeck
import Verif.Props.TfDeck

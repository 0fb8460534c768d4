import Verif.Props.Grid
import Verif.Props.Isolation
import Verif.Props.Energy
import Verif.Props.LaserInit
import Verif.Props.Optics
import Verif.Props.Propagate
import Verif.Props.Propagate2
import Verif.Props.Frequency
import Verif.Props.Duration
import Verif.Props.FromArray
import Verif.Props.OpenPMD
import Verif.Props.OpenPMDFiles
import Verif.Props.OpenPMDRead
import Verif.Props.Profile
import Verif.Props.Analytic
import Verif.Props.RealFrequency
import Verif.Props.TransverseHeap
import Verif.Props.Paraxial
import Verif.Props.LaguerreGauss
import Verif.Props.Spectrum
import Verif.Props.History
import Verif.Props.FullField
import Verif.Props.ZernikeOrtho
import Verif.Props.FromData
import Verif.Props.LongSpectral
import Verif.Props.OpenPMDFull
import Verif.Props.PhaseRetrieval
import Verif.Props.Speckle
import Verif.Props.SpeckleStats
import Verif.Props.ModeWeights
import Verif.Lemmas.Gradient
import Verif.Props.VectorPotential
import Verif.Model.Show
import Verif.Props.Show
import Verif.Spec.Rays
import Verif.Props.Rays
import Verif.Props.RoundProfiles
import Verif.Model.Spectrum
import Verif.Lemmas.Lines
import Verif.Props.SpectrumFull
import Verif.Props.SpectrumRange
import Verif.Model.Insight
import Verif.Props.Insight
import Verif.Model.AxesHeap
import Verif.Props.AxesHeap
import Verif.Model.ImportExport
import Verif.Spec.ImportExport
import Verif.Props.ImportExport
import Verif.Spec.Lens
import Verif.Props.Lens
import Verif.Spec.Chirp
import Verif.Props.Chirp
import Verif.Props.LaguerreOrtho
import Verif.Props.Azimuthal
import Verif.Props.CentralFrequency
import Verif.Lemmas.Riemann
import Verif.Props.Convergence
import Verif.Props.FineGrids
import Verif.Props.GaussianPeak
import Verif.Props.Superposition
import Verif.Props.Translation
import Verif.Props.PulseDuration
import Verif.Props.PhaseRetrieval2
import Verif.Props.ModeFamilies
import Verif.Props.Restart
import Verif.Props.LastNormalisation
import Verif.Props.SpectralFilter
import Verif.Props.FilteredDuration
import Verif.Props.SpectrumFine
import Verif.Props.InsightBarycenter
import Verif.Props.FromArrayAccuracy
import Verif.Props.CameraFine
import Verif.Props.FrequencyFine
import Verif.Props.UnwrapNd
import Verif.Props.ModeFine
import Verif.Props.ModeComplete
import Verif.Props.ModeWidth
import Verif.Props.BeamWidth
import Verif.Props.VortexWidth
import Verif.Props.ModeEnergy
import Verif.Props.LongFine
import Verif.Props.EnvelopeEnergy
import Verif.Props.Passive
import Verif.Props.PeakModes
import Verif.Props.FieldNormFine
import Verif.Props.FieldNormRound
import Verif.Props.Aperture
import Verif.Props.AperturePlane
import Verif.Props.Unchirped
import Verif.Props.UnchirpedMore
import Verif.Props.SlicePlane
import Verif.Props.FullFieldFine
import Verif.Props.FullFieldAngles
import Verif.Props.Witnesses
import Verif.Props.WitnessesData

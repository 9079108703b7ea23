import Verif.Dict
import Verif.Lemmas.ArrayHeap
import Verif.Lemmas.Coarray
import Verif.Lemmas.CoarrayMat
import Verif.Lemmas.Crb
import Verif.Lemmas.DavisKahan
import Verif.Lemmas.EigenGap
import Verif.Lemmas.Esprit
import Verif.Lemmas.EspritBasis
import Verif.Lemmas.EspritLimit
import Verif.Lemmas.Estimator
import Verif.Lemmas.Grid
import Verif.Lemmas.ImplicitPath
import Verif.Lemmas.Lags
import Verif.Lemmas.Limits
import Verif.Lemmas.ListAux
import Verif.Lemmas.MLLimit
import Verif.Lemmas.MathUtils
import Verif.Lemmas.Performance
import Verif.Lemmas.Rearranged
import Verif.Lemmas.RootLimit
import Verif.Lemmas.RootMask
import Verif.Lemmas.SameOrder
import Verif.Lemmas.SameSpectrum
import Verif.Lemmas.SearchGrid
import Verif.Lemmas.Sources
import Verif.Lemmas.Steering
import Verif.Lemmas.Subspace
import Verif.Lemmas.Weyl
import Verif.Model.ArrayHeap
import Verif.Model.ArrayQueries
import Verif.Model.Arrays
import Verif.Model.Atoms2D
import Verif.Model.Beamforming
import Verif.Model.Coarray
import Verif.Model.Conversion
import Verif.Model.Esprit
import Verif.Model.Estimator
import Verif.Model.Grid
import Verif.Model.L1lsq
import Verif.Model.ML
import Verif.Model.MLEstimate
import Verif.Model.MLObjective
import Verif.Model.MathUtils
import Verif.Model.Performance
import Verif.Model.Perturbations
import Verif.Model.Plotting
import Verif.Model.Preprocessing
import Verif.Model.RootMusic
import Verif.Model.Signals
import Verif.Model.SourceHeap
import Verif.Model.SourceNumber
import Verif.Model.Sources
import Verif.Model.Sparse
import Verif.Model.Steering
import Verif.Model.Subspace
import Verif.Model.UniqueRows
import Verif.Model.VectorSensors
import Verif.Nd
import Verif.Props.Ambiguity
import Verif.Props.ArgumentErrors
import Verif.Props.ArrayQueries
import Verif.Props.Beamforming
import Verif.Props.Bookkeeping
import Verif.Props.BookkeepingErrors
import Verif.Props.Calibrated
import Verif.Props.Capon
import Verif.Props.Chain
import Verif.Props.CircularArrays
import Verif.Props.Coarray
import Verif.Props.CoarrayDetection
import Verif.Props.CoarrayEstimation
import Verif.Props.CoarrayMusic
import Verif.Props.CoarrayNear
import Verif.Props.Coherent
import Verif.Props.CoherentDetection
import Verif.Props.CoherentNear
import Verif.Props.Concentration
import Verif.Props.Consistency
import Verif.Props.Crb
import Verif.Props.CrbUla
import Verif.Props.DataScale
import Verif.Props.DetectorsNear
import Verif.Props.Dimensions
import Verif.Props.Directional
import Verif.Props.Dominant
import Verif.Props.Ecov
import Verif.Props.EcovCoarray
import Verif.Props.Esprit
import Verif.Props.EspritFormulations
import Verif.Props.EspritNear
import Verif.Props.Estimator
import Verif.Props.FromZ
import Verif.Props.Geometry
import Verif.Props.GeometryStored
import Verif.Props.IntegerGrid
import Verif.Props.L1lsq
import Verif.Props.ML
import Verif.Props.MLNear
import Verif.Props.MLObjective
import Verif.Props.MathUtils
import Verif.Props.MinNorm
import Verif.Props.MinNormSingle
import Verif.Props.Mirror
import Verif.Props.MirrorBounds
import Verif.Props.MirrorCoarray
import Verif.Props.MirrorEsprit
import Verif.Props.MirrorRoot
import Verif.Props.Monotone
import Verif.Props.MoreSources
import Verif.Props.MusicErrors
import Verif.Props.MusicPath
import Verif.Props.Numbering
import Verif.Props.NumberingCoarray
import Verif.Props.Performance
import Verif.Props.Placement
import Verif.Props.Plotting
import Verif.Props.Preprocessing
import Verif.Props.RayleighLimit
import Verif.Props.Robust
import Verif.Props.RootMusic
import Verif.Props.RootMusicEstimate
import Verif.Props.RootMusicNear
import Verif.Props.RootPartner
import Verif.Props.Rotation
import Verif.Props.Scaling
import Verif.Props.Search2D
import Verif.Props.SearchGrid
import Verif.Props.Signals
import Verif.Props.SingleSource
import Verif.Props.Singular
import Verif.Props.Smoothing
import Verif.Props.SourceHeap
import Verif.Props.SourceNumber
import Verif.Props.Sources
import Verif.Props.Sparse
import Verif.Props.SparseLinear
import Verif.Props.Steering
import Verif.Props.Stouc
import Verif.Props.Subspace
import Verif.Props.Translation
import Verif.Props.Uncalibrated
import Verif.Props.UniqueRows
import Verif.Props.Units
import Verif.Props.Ura
import Verif.Props.VectorSensors
import Verif.Props.VirtualUla
import Verif.Props.WrongScale
import Verif.Py
import Verif.Spec.Arrays
import Verif.Spec.Coarray
import Verif.Spec.CoarrayMusic
import Verif.Spec.Draws
import Verif.Spec.Frobenius
import Verif.Spec.Performance
import Verif.Spec.Perturbations
import Verif.Spec.Plotting
import Verif.Spec.Rearranged
import Verif.Spec.Rotation
import Verif.Spec.SameOrder
import Verif.Spec.SourceNumber
import Verif.Spec.Sources
import Verif.Spec.Steering
import Verif.Spec.Subspace

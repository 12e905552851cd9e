import Verif.Model.Outcome
import Verif.Model.Mat
import Verif.Model.Padding
import Verif.Model.Params
import Verif.Model.Wavelet
import Verif.Model.Transform
import Verif.Model.Buffer
import Verif.Proof.Padding
import Verif.Spec.Params
import Verif.Proof.Params
import Verif.Props.Params
import Verif.Props.Padding
import Verif.Proof.FilterBank
import Verif.Proof.Dwt
import Verif.Proof.Kernel
import Verif.Proof.Sparse
import Verif.Proof.Dwt2
import Verif.Proof.Steps
import Verif.Proof.Decomp
import Verif.Proof.Compose
import Verif.Model.Coeffs
import Verif.Spec.Signal
import Verif.Proof.Bridge
import Verif.Proof.Coarse
import Verif.Props.Transform
import Verif.Model.World
import Verif.Proof.Cache
import Verif.Proof.World
import Verif.Proof.Nonempty
import Verif.Spec.History
import Verif.Proof.History
import Verif.Props.History
import Verif.Props.Views
import Verif.Proof.Oper
import Verif.Spec.Linear
import Verif.Proof.Linear
import Verif.Proof.Const
import Verif.Props.Linear
import Verif.Proof.Error
import Verif.Props.Error
import Verif.Model.Serialize
import Verif.Spec.Serialize
import Verif.Proof.Serialize
import Verif.Proof.Blob
import Verif.Proof.Parse
import Verif.Props.Serialize
import Verif.Model.Equality
import Verif.Proof.Equality
import Verif.Props.Equality
import Verif.Model.Denoise
import Verif.Spec.Denoise
import Verif.Proof.Denoise
import Verif.Props.Denoise
import Verif.Model.Metrics
import Verif.Spec.Metrics
import Verif.Proof.Metrics
import Verif.Proof.Range
import Verif.Props.Metrics
import Verif.Model.Threads
import Verif.Spec.Threads
import Verif.Proof.Threads
import Verif.Props.Threads
import Verif.Model.Color
import Verif.Model.ColorFloat
import Verif.Spec.Color
import Verif.Proof.Color
import Verif.Props.Color
import Verif.Model.Pixel
import Verif.Spec.Pixel
import Verif.Proof.Pixel
import Verif.Props.Pixel
import Verif.Model.Codec
import Verif.Spec.Codec
import Verif.Proof.Codec
import Verif.Props.Codec
import Verif.Model.Image
import Verif.Proof.Image
import Verif.Props.Image
import Verif.Model.SfBits
import Verif.Spec.SfBits
import Verif.Proof.SfBits
import Verif.Proof.SfCode
import Verif.Props.SfBits
import Verif.Model.SfCompressor
import Verif.Spec.Bf
import Verif.Spec.Code
import Verif.Spec.SfParse
import Verif.Spec.Float
import Verif.Proof.SfTable
import Verif.Proof.SfSymbol
import Verif.Proof.SfValue
import Verif.Proof.SfDecode
import Verif.Proof.SfCompressor
import Verif.Proof.SfParse
import Verif.Proof.SfReuse
import Verif.Proof.SfRound
import Verif.Props.SfCompressor
import Verif.Props.SfParse
import Verif.Model.Python
import Verif.Spec.Python
import Verif.Proof.Python
import Verif.Props.Python
import Verif.Props.PythonBuffer
import Verif.Model.FloatArith
import Verif.Proof.Rounding
import Verif.Props.Rounding
import Verif.Proof.Rounding2D
import Verif.Props.Rounding2D
import Verif.Model.Matrix1D
import Verif.Spec.Matrix1D
import Verif.Proof.Matrix1D
import Verif.Props.Matrix1D
import Verif.Model.SfChoose
import Verif.Proof.Kraft
import Verif.Proof.SfFill
import Verif.Proof.SfAssign
import Verif.Proof.SfChoose
import Verif.Proof.SfOverflow
import Verif.Props.SfChoose
import Verif.Proof.SfExact
import Verif.Props.SfExact
import Verif.Model.Text
import Verif.Model.Quality
import Verif.Model.PythonImage
import Verif.Spec.Quality
import Verif.Proof.Text
import Verif.Proof.Quality
import Verif.Proof.PythonImage
import Verif.Props.Text
import Verif.Props.Quality
import Verif.Props.PythonImage
import Verif.Props.Overflow
import Verif.Proof.RoundingNorm
import Verif.Proof.RoundingPass
import Verif.Proof.RoundingStep
import Verif.Proof.RoundingTrip
import Verif.Proof.RoundingOut
import Verif.Props.RoundingNorm
import Verif.Model.FloatCodec
import Verif.Proof.WhitePicture
import Verif.Props.ImageFloat
import Verif.Proof.Stability
import Verif.Proof.SimpleLoss
import Verif.Props.Stability
import Verif.Props.SimpleLoss
import Verif.Spec.Lossy
import Verif.Proof.Truncate
import Verif.Props.Lossy
import Verif.Spec.Structure
import Verif.Proof.Structure
import Verif.Props.Structure
import Verif.Proof.Moments
import Verif.Props.Moments
import Verif.Proof.Reverse
import Verif.Props.Reverse
import Verif.Spec.Optimal
import Verif.Proof.Optimal
import Verif.Props.Optimal
import Verif.Proof.ColorFloat
import Verif.Props.ColorFloat
import Verif.Model.Partial
import Verif.Proof.Partial
import Verif.Props.Partial
import Verif.Model.HslFloat
import Verif.Proof.ColorMove
import Verif.Props.HslFloat
import Verif.Proof.RoundingHalves
import Verif.Props.RoundingHalves
import Verif.Model.FloatBits
import Verif.Proof.FloatBits
import Verif.Props.FloatBits
import Verif.Model.FloatDenoise
import Verif.Proof.FloatDenoise
import Verif.Props.FloatDenoise
import Verif.Spec.Generations
import Verif.Proof.Generations
import Verif.Props.Generations
import Verif.Model.FloatMetrics
import Verif.Spec.FloatMetrics
import Verif.Proof.FloatMetrics
import Verif.Props.FloatMetrics
import Verif.Model.BitsCodec
import Verif.Spec.PictureArchive
import Verif.Props.PictureArchive
import Verif.Spec.LevelOrder
import Verif.Proof.LevelOrder
import Verif.Props.LevelOrder
import Verif.Proof.Preview
import Verif.Props.Preview
import Verif.Model.BitsColour
import Verif.Spec.HslArchive
import Verif.Proof.BitsColour
import Verif.Props.HslArchive
import Verif.Spec.Untrusted
import Verif.Proof.Untrusted
import Verif.Props.Untrusted
import Verif.Model.Clients
import Verif.Spec.Clients
import Verif.Proof.Clients
import Verif.Props.Clients
import Verif.Spec.Size
import Verif.Proof.Size
import Verif.Props.Size
import Verif.Model.Sharing
import Verif.Spec.Sharing
import Verif.Proof.Sharing
import Verif.Props.Sharing
import Verif.Spec.Local
import Verif.Proof.Local
import Verif.Props.Local
import Verif.Spec.Damage
import Verif.Proof.Damage
import Verif.Props.Damage
import Verif.Model.Callback
import Verif.Spec.Callback
import Verif.Proof.Callback
import Verif.Props.Callback
import Verif.Model.AnyOrder
import Verif.Proof.AnyOrder
import Verif.Props.AnyOrder
import Verif.Model.Crew
import Verif.Spec.Crew
import Verif.Proof.Crew
import Verif.Props.Crew
import Verif.Model.CrewFail
import Verif.Spec.CrewFail
import Verif.Proof.CrewFailCache
import Verif.Proof.CrewFail
import Verif.Props.CrewFail
import Verif.Model.FusedColour
import Verif.Proof.FusedColour
import Verif.Props.FusedColour
import Verif.Spec.AnyDamage
import Verif.Proof.AnyDamage
import Verif.Props.AnyDamage
import Verif.Spec.WrongSizes
import Verif.Proof.WrongSizes
import Verif.Props.WrongSizes
import Verif.Spec.Rewrite
import Verif.Proof.Rewrite
import Verif.Props.Rewrite
import Verif.Model.SimpleCall
import Verif.Spec.SimpleCall
import Verif.Proof.SimpleCall
import Verif.Props.SimpleCall
import Verif.Spec.FirstTrouble
import Verif.Proof.FirstTrouble
import Verif.Props.FirstTrouble
import Verif.Model.Lifetime
import Verif.Spec.Lifetime
import Verif.Proof.Lifetime
import Verif.Props.Lifetime
import Verif.Spec.Window
import Verif.Proof.Window
import Verif.Props.Window
import Verif.Model.MaxSteps
import Verif.Spec.MaxSteps
import Verif.Proof.MaxSteps
import Verif.Props.MaxSteps
import Verif.Proof.Mantissa
import Verif.Props.Mantissa
import Verif.Spec.Mantissa
import Verif.Proof.Quiet
import Verif.Props.Quiet
import Verif.Spec.Quiet
import Verif.Proof.Spread
import Verif.Props.Spread
import Verif.Spec.Spread
import Verif.Proof.Polarity
import Verif.Props.Polarity
import Verif.Spec.Polarity
import Verif.Proof.Means
import Verif.Props.Means
import Verif.Spec.Means
import Verif.Proof.Growth
import Verif.Props.Growth
import Verif.Spec.Growth
import Verif.Model.Program
import Verif.Proof.Program
import Verif.Props.Program
import Verif.Spec.Program
import Verif.Model.Reentrant
import Verif.Proof.Reentrant
import Verif.Props.Reentrant
import Verif.Spec.Reentrant
import Verif.Proof.Twice
import Verif.Props.Twice
import Verif.Spec.Twice
import Verif.Proof.Noise
import Verif.Props.Noise
import Verif.Spec.Noise
import Verif.Proof.Mirror
import Verif.Props.Mirror
import Verif.Spec.Mirror
import Verif.Proof.Harsher
import Verif.Props.Harsher
import Verif.Spec.Harsher
import Verif.Props.HarsherPad
import Verif.Proof.Fading
import Verif.Props.Fading
import Verif.Spec.Fading
import Verif.Proof.Dither
import Verif.Props.Dither
import Verif.Model.FloatFlags
import Verif.Proof.Marks
import Verif.Props.Units
import Verif.Spec.Units
import Verif.Model.FloatFlagsDenoise
import Verif.Proof.MarksDenoise
import Verif.Props.UnitsDenoise
import Verif.Props.UnitsArchive
import Verif.Spec.UnitsArchive
import Verif.Props.UnitsCompose

import Verif.Props.Nproc
import Verif.Props.Pool
import Verif.Props.PoolLog
import Verif.Props.PoolCrash
import Verif.Props.PoolShared
import Verif.Props.Cache
import Verif.Props.Bytes
import Verif.Props.Raypath
import Verif.Props.IoMisc
import Verif.Props.Header
import Verif.Props.Square
import Verif.Props.Bins
import Verif.Props.Angles
import Verif.Props.Rotation
import Verif.Props.Cull
import Verif.Props.Take
import Verif.Props.Resample
import Verif.Props.Quantile
import Verif.Props.Smooth
import Verif.Props.Mapper
import Verif.Props.ViewMapper
import Verif.Props.SolidMapper
import Verif.Props.Alias
import Verif.Props.OwnView
import Verif.Props.ViewHeader
import Verif.Props.ViewArea
import Verif.Props.Project
import Verif.Props.PosIdx
import Verif.Props.Metric
import Verif.Props.MetricBuild
import Verif.Props.Stray
import Verif.Props.Curcio
import Verif.Props.Draw
import Verif.Props.Shapes
import Verif.Props.Table
import Verif.Props.GssSave
import Verif.Props.Versions
import Verif.Props.Retina
import Verif.Props.GssOptics
import Verif.Props.GssResp
import Verif.Props.GssPipe
import Verif.Props.GssState
import Verif.Props.GssLaws
import Verif.Props.GssPupil
import Verif.Props.Torn
import Verif.Props.Peak
import Verif.Props.Gather
import Verif.Props.Command
import Verif.Props.Align
import Verif.Props.Solid2ang
import Verif.Props.SolidLight
import Verif.Props.SolidMean
import Verif.Props.TurnLight
import Verif.Props.CropLight
import Verif.Props.Shell
import Verif.Props.Names
import Verif.Props.Files
import Verif.Props.Convert
import Verif.Props.HeaderTree
import Verif.Props.Textwrap
import Verif.Props.Reclean
import Verif.Props.HeaderFlat
import Verif.Props.HeaderInset
import Verif.Props.SmoothCmd
import Verif.Props.InitImg
import Verif.Lemmas.Sphere
import Verif.Props.PixelOmega
import Verif.Props.GssKernel
import Verif.Props.Quadrature
import Verif.Props.UniformImage
import Verif.Props.MetricLaws
import Verif.Props.GssLight
import Verif.Props.Rounded
import Verif.Props.RoundedCells
import Verif.Props.RoundedPlane
import Verif.Props.RoundedMetrics
import Verif.Props.RoundedUnit
import Verif.Props.RoundedView
import Verif.Props.RoundedAxis
import Verif.Props.RoundedAngles
import Verif.Props.Steady
import Verif.Props.QuantileSteady
import Verif.Props.CullStable
import Verif.Props.RoundedCull
import Verif.Props.NanQuantile
import Verif.Props.RoundedChord
import Verif.Props.RoundedBetween
import Verif.Props.RoundedReflect
import Verif.Props.RoundedRotate
import Verif.Props.QuarterTurn
import Verif.Props.TurnDrift
import Verif.Props.NormStable
import Verif.Props.BetweenSharp
import Verif.Props.ReflectExact
import Verif.Props.RotateExact
import Verif.Props.CullExact
import Verif.Props.RoundedQuantile
import Verif.Props.Rgbe
import Verif.Props.RoundedNorm
import Verif.Props.RoundedSquare
import Verif.Props.SquareNear
import Verif.Props.RoundedDirection
import Verif.Props.Special
import Verif.Props.PeakOut
import Verif.Props.Compass
import Verif.Props.SplitRays
import Verif.Props.Live
import Verif.Props.MapperState
import Verif.Props.Pipes
import Verif.Props.SmoothQ
import Verif.Props.Gauss
import Verif.Props.GaussEye
import Verif.Props.Interp
import Verif.Props.InterpInt
import Verif.Props.ThereBack
import Verif.Props.BackThere
import Verif.Props.QuantileSplit
import Verif.Props.ImgSize
import Verif.Props.EqualArea
import Verif.Props.SolidAngle
import Verif.Props.PatchMean
import Verif.Props.ConvertMean

import Verif.Base.Loop
import Verif.Base.Num
import Verif.Mute.Props
import Verif.Fd.RecordingProps
import Verif.Fd.Shots
import Verif.Fd.ShotHistory
import Verif.Fft.KissProps
import Verif.Fft.PfaTable
import Verif.Fft.OptN
import Verif.Fft.RealDft
import Verif.Base.Write
import Verif.Marchenko.TimeRev
import Verif.Marchenko.FileInfo
import Verif.Marchenko.FirstBreak
import Verif.Base.Par
import Verif.Base.ParProg
import Verif.Marchenko.Positions
import Verif.Marchenko.Synth
import Verif.Marchenko.Iter
import Verif.Util.Gcd
import Verif.Util.Transpose
import Verif.Util.ExtendModel
import Verif.Util.Correlate
import Verif.Getpar.Strto
import Verif.Getpar.Table
import Verif.Getpar.Props
import Verif.Getpar.ParFile
import Verif.Base.Stencil
import Verif.Fd.Acoustic4
import Verif.Fd.AcouBounds
import Verif.Fd.AcouLinear
import Verif.Fd.AcouSched
import Verif.Fd.AcouSpeed
import Verif.Base.StencilAt
import Verif.Fd.AcouInterior
import Verif.Fd.Consist
import Verif.Fd.Source
import Verif.Fd.Receiver
import Verif.Zfp.Bitstream
import Verif.Zfp.BitstreamProps
import Verif.Zfp.Coeff
import Verif.Zfp.Coder
import Verif.Zfp.CoderEnc
import Verif.Zfp.CoderDec
import Verif.Zfp.CoderProps
import Verif.Zfp.Lift
import Verif.Zfp.LiftProps
import Verif.Zfp.Block
import Verif.Zfp.BlockProps
import Verif.Zfp.Float
import Verif.Zfp.FloatProps
import Verif.Zfp.Header
import Verif.Zfp.HeaderProps
import Verif.Zfp.Array
import Verif.Zfp.ArrayLemmas
import Verif.Zfp.ArrayBlocks
import Verif.Zfp.ArrayCode
import Verif.Zfp.ArrayProps
import Verif.Util.Polint
import Verif.Util.Spline
import Verif.Util.Interface
import Verif.Util.Makemod
import Verif.Util.Lateral
import Verif.Zfp.Promote
import Verif.Zfp.Cache
import Verif.Zfp.CacheProps
import Verif.Zfp.Iterate
import Verif.Util.NameExt
import Verif.Base.StencilAll
import Verif.Fd.Elastic4
import Verif.Fd.ElaCover
import Verif.Fd.ElaBounds
import Verif.Fd.ElaLinear
import Verif.Fd.ElaSched
import Verif.Fd.ElaInterior
import Verif.Fft.Mayer
import Verif.Fft.MayerTrig
import Verif.Fft.MayerMath
import Verif.Fft.MayerStage
import Verif.Fft.MayerFht
import Verif.Fft.MayerProps
import Verif.Fft.MayerLimits
import Verif.Fd.ElaTaper
import Verif.Fd.ElaPml
import Verif.Fd.ElaWall
import Verif.Base.Restore
import Verif.Fd.AcouSource
import Verif.Fd.AcouShot
import Verif.Fd.AcouInject
import Verif.Fd.AcouSrcProps
import Verif.Fd.AcouSrcSched
import Verif.Fft.PfaKern
import Verif.Fft.PfaShort
import Verif.Fft.Pfa
import Verif.Fft.PfaMath
import Verif.Fft.PfaPass
import Verif.Fft.PfaProps
import Verif.Fft.PfaReal
import Verif.Fft.PfaRealMath
import Verif.Fft.PfaRealProps
import Verif.Base.Rows
import Verif.Fft.Pfa2
import Verif.Fft.Pfa2Props
import Verif.Fft.Lib
import Verif.Fft.LibProps
import Verif.Fft.LibMany
import Verif.Base.Writes
import Verif.Fft.Plane
import Verif.Fft.PlaneProps
import Verif.Fft.Plane2Props
import Verif.Fft.Cube
import Verif.Fft.CubeProps
import Verif.Conv.Model
import Verif.Conv.Spec
import Verif.Conv.Through
import Verif.Conv.Props
import Verif.Conv.Props2
import Verif.Conv.Examples
import Verif.Conv.Main
import Verif.Conv.MainProps
import Verif.Conv.MainProps2
import Verif.Conv.MainProps3
import Verif.Med.Model
import Verif.Med.Loops
import Verif.Med.Spec
import Verif.Med.Ext
import Verif.Med.Sides
import Verif.Med.Fill
import Verif.Med.Pml
import Verif.Med.Props
import Verif.Med.Visco
import Verif.Med.Relax
import Verif.Med.Info
import Verif.Stab.Sum
import Verif.Stab.Energy
import Verif.Stab.Growth
import Verif.Stab.Bound
import Verif.Stab.Kernel
import Verif.Stab.Props
import Verif.Stab.Limit
import Verif.Stab.Check
import Verif.Stab.Contrast
import Verif.Stab.Order2
import Verif.Med.Files
import Verif.Toep.Model
import Verif.Toep.Spec
import Verif.Toep.Props
import Verif.Extrap.Model
import Verif.Extrap.Spec
import Verif.Extrap.Lsq
import Verif.Extrap.Props
import Verif.Extrap.Weight
import Verif.Extrap.Kw
import Verif.Extrap.KwProps
import Verif.Extrap.KwMain
import Verif.Extrap.Phase
import Verif.Extrap.PhaseProps
import Verif.Extrap.PhaseSmooth
import Verif.Ray.Model
import Verif.Ray.Props
import Verif.Ray.Main
import Verif.Ray.Head
import Verif.Ray.Scale
import Verif.Ray.Amp
import Verif.Recv.Model
import Verif.Recv.Props
import Verif.Recv.Limits
import Verif.Snap.Model
import Verif.Snap.Props
import Verif.Snap.Limits
import Verif.Vir.Model
import Verif.Vir.Sort
import Verif.Vir.Select
import Verif.Vir.Trace
import Verif.Vir.Threads
import Verif.Basop.Model
import Verif.Basop.Filter
import Verif.Basop.Shift
import Verif.Basop.Analytic
import Verif.Basop.Simple
import Verif.Su.Model
import Verif.Su.Props
import Verif.Su.Smooth
import Verif.Fd.RunFiles
import Verif.Fd.Wavelet
import Verif.Util.PadModel
import Verif.Util.FreqWave
import Verif.Marchenko.Primaries
import Verif.Marchenko.Picks
import Verif.Mdd.Model
import Verif.Mdd.Props
import Verif.Mdd.Defects
import Verif.Mdd.Inverse
import Verif.Mdd.LeastSquares
import Verif.Mute.Plane
import Verif.Mute.PlaneProps
import Verif.Rtm.Model
import Verif.Rtm.Image
import Verif.Rtm.Props
import Verif.Rtm.Hilbert
import Verif.Vmar.Model
import Verif.Vmar.Props
import Verif.M3D.Positions
import Verif.M3D.Synth
import Verif.M3D.Mute
import Verif.M3D.Amp
import Verif.Fd3.Acoustic3D
import Verif.Fd3.Props
import Verif.Fd3.Elastic3D
import Verif.Fd3.ElasticProps
import Verif.Snap.Reshape
import Verif.Snap.ReshapeProps
import Verif.Snap.Mute
import Verif.Snap.MuteProps
import Verif.Em.Em4
import Verif.Em.Em4Props
import Verif.Snap.Combine
import Verif.Snap.CombineProps
import Verif.Util.Shapes
import Verif.Util.ShapesProps
import Verif.Util.Extend3D
import Verif.Snap.Induced
import Verif.Snap.R1D
import Verif.Util.KxFilter
import Verif.Util.ModelInfo
import Verif.Util.ConvHomg
import Verif.Em.Medium
import Verif.Util.RecPos
import Verif.Util.Interfaces
import Verif.Util.ReadLog
import Verif.Fd3.Place3D
import Verif.Fd3.Trilinear
import Verif.Fd3.Direct

import Verif.Np
import Verif.Model.Sched
import Verif.Model.ParallelSlices
import Verif.Model.BackProj
import Verif.Model.Sorting
import Verif.Lemmas.Sched
import Verif.Props.ParallelSlices
import Verif.Props.BackProj
import Verif.Props.Sorting
import Verif.Model.Io
import Verif.Props.Io

import Verif.Num
import Verif.Model.Interp
import Verif.Lemmas.Num
import Verif.Model.Stitch
import Verif.Props.Stitch
import Verif.Model.Helical
import Verif.Props.Helical
import Verif.Model.Center
import Verif.Props.Center
import Verif.Model.Chunks
import Verif.Lemmas.Chunks
import Verif.Model.Removal
import Verif.Props.Removal
import Verif.Model.Correction
import Verif.Model.BeamHardening
import Verif.Props.Correction
import Verif.Props.BeamHardening
import Verif.Model.Phase
import Verif.Props.Phase
import Verif.Model.DarkField
import Verif.Props.DarkField
import Verif.Model.Fourier
import Verif.Lemmas.Fourier
import Verif.Props.Fourier
import Verif.Model.Surface
import Verif.Props.Fourier2
import Verif.Props.Surface
import Verif.Model.Post
import Verif.Props.Post
import Verif.Props.Reslice
import Verif.Model.Vertical
import Verif.Model.LogStep
import Verif.Model.VerticalCenter
import Verif.Props.Vertical
import Verif.Props.VerticalBp
import Verif.Props.VerticalChunk
import Verif.Props.LogStep
import Verif.Props.VerticalCenter
import Verif.Model.Correlation
import Verif.Model.Peak
import Verif.Model.Umpa
import Verif.Model.LocalShifts
import Verif.Props.Correlation
import Verif.Props.Peak
import Verif.Props.Shift
import Verif.Props.ShiftFind
import Verif.Props.Umpa
import Verif.Props.LocalShifts
import Verif.Props.LocalShiftsY
import Verif.Model.GlobalShift
import Verif.Props.GlobalShift
import Verif.Props.LocalRecover
import Verif.Model.Regularization
import Verif.Props.Regularization
import Verif.Model.Locate
import Verif.Props.Locate
import Verif.Model.GridFix
import Verif.Props.GridFix
import Verif.Model.Simulation
import Verif.Props.Simulation
import Verif.Props.Masks
import Verif.Model.Calibration
import Verif.Props.Ellipse
import Verif.Props.TiltRoll
import Verif.Model.Blobs
import Verif.Props.Blobs
import Verif.Props.Dots
import Verif.Model.Stripe
import Verif.Props.Stripe
import Verif.Props.StripeRemove
import Verif.Model.Wavelet
import Verif.Props.Wavelet
import Verif.Model.Polar
import Verif.Props.Polar
import Verif.Model.StripeFilters
import Verif.Props.StripeFilters
import Verif.Model.Stacks
import Verif.Props.Stacks
import Verif.Model.Hdf
import Verif.Props.Hdf
import Verif.Model.Recon
import Verif.Props.Recon
import Verif.Props.Windows
import Verif.Props.Recon2
import Verif.Model.Dfi
import Verif.Props.Dfi
import Verif.Props.Dfi2
import Verif.Props.Dfi3
import Verif.Props.Dfi4
import Verif.Model.SliceMetric
import Verif.Props.SliceMetric
import Verif.Props.SliceMetric2
import Verif.Props.SliceMetric3
import Verif.Model.VisualCenter
import Verif.Props.VisualCenter
import Verif.Props.SliceMetric4
import Verif.Model.GpuShifts
import Verif.Props.ChunkLoop
import Verif.Props.GpuShifts
import Verif.Props.GpuShifts2
import Verif.Props.GpuShifts3
import Verif.Props.GpuRecover
import Verif.Model.PhaseFft
import Verif.Lemmas.FreqOp
import Verif.Lemmas.FreqOp2
import Verif.Props.PhaseFft
import Verif.Props.PhaseFft2
import Verif.Props.PhaseFft3
import Verif.Props.FcSurface
import Verif.Props.FcSurface2
import Verif.Props.FcSurface3
import Verif.Model.VerticalDriver
import Verif.Props.VerticalDriver
import Verif.Props.VerticalSection
import Verif.Model.HelicalFull
import Verif.Props.HelicalFull
import Verif.Model.StackShift
import Verif.Props.StackShift
import Verif.Model.SpeckleTracking
import Verif.Props.SpeckleTracking
import Verif.Model.Quality
import Verif.Props.Quality
import Verif.Props.Background
import Verif.Model.ForwardProj
import Verif.Props.ForwardProj
import Verif.Model.FlatOptions
import Verif.Props.FlatOptions
import Verif.Model.Convert
import Verif.Props.Convert
import Verif.Props.ImageFiles
import Verif.Model.External
import Verif.Props.External
import Verif.Lemmas.DftSymm
import Verif.Model.CenterMetric
import Verif.Props.CenterMetric
import Verif.Model.DetectSample
import Verif.Props.DetectSample
import Verif.Model.WinPath
import Verif.Props.WinPath
import Verif.Model.InputTypes
import Verif.Props.InputTypes
import Verif.Model.UmpaFull
import Verif.Props.UmpaFull
import Verif.Props.UmpaFull2
import Verif.Props.UmpaFull3
import Verif.Props.UmpaFull4
import Verif.Model.GlobalGpu
import Verif.Props.GlobalGpu
import Verif.Model.Phantom
import Verif.Props.LineTarget
import Verif.Props.FacePhantom
import Verif.Props.AddNoise
import Verif.Model.Writer
import Verif.Props.Writer
import Verif.Model.ResliceRun
import Verif.Props.ResliceRun
import Verif.Model.Script
import Verif.Props.Script
import Verif.Model.VerticalSearch
import Verif.Props.Autocorrelation
import Verif.Props.VerticalSearch
import Verif.Model.ConvertRun
import Verif.Props.ConvertRun
import Verif.Model.Overlap
import Verif.Props.Overlap
import Verif.Model.Wedge180
import Verif.Props.Wedge180
import Verif.Model.JoinMany
import Verif.Props.JoinMany
import Verif.Model.PhaseCorr
import Verif.Props.PhaseCorr
import Verif.Props.Dfi5
import Verif.Model.GpuImage
import Verif.Props.GpuImage
import Verif.Props.GpuImage2
import Verif.Props.LineRecover
import Verif.Props.UmpaBest
import Verif.Model.SliceMethod
import Verif.Props.SliceMethod
import Verif.Props.StitchFraction
import Verif.Model.HdfTree
import Verif.Props.HdfTree
import Verif.Props.CenterFraction
import Verif.Props.ReconMirror
import Verif.Props.GlobalNorm
import Verif.Props.CenterMirror
import Verif.Props.FittingScale
import Verif.Props.InterpolateKind
import Verif.Model.ParallelErrors
import Verif.Props.ParallelErrors
import Verif.Model.GlobalNormStack
import Verif.Props.GlobalNormStack
import Verif.Model.Unwarp
import Verif.Props.Unwarp
import Verif.Model.Savgol
import Verif.Props.Savgol
import Verif.Model.NdiGauss
import Verif.Props.NdiGauss
import Verif.Model.NdiShift
import Verif.Props.NdiShift
import Verif.Model.NdiSpline
import Verif.Props.NdiSpline
import Verif.Model.StackDispatch
import Verif.Props.StackDispatch
import Verif.Model.Pywt
import Verif.Props.Pywt
import Verif.Props.StripeScale
import Verif.Props.RowOrder
import Verif.Props.MirrorStripe
import Verif.Props.MonotoneStripe
import Verif.Props.OffsetStripe
import Verif.Props.OffsetStripe2
import Verif.Props.OffsetStripe3
import Verif.Props.ForwardMass
import Verif.Props.MirrorFft
import Verif.Props.Dots2
import Verif.Props.FlatUnits
import Verif.Props.FresnelSymm
import Verif.Props.FilterSymm
import Verif.Props.WedgeStart

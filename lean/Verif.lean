import Verif.Model.Fault
import Verif.Model.RingSpan
import Verif.Model.RingBuffer
import Verif.Spec.Deque
import Verif.Lemmas.RingSpan
import Verif.Lemmas.RingBuffer
import Verif.Props.C01_RingBuffer
import Verif.Model.FixedRingBuffer
import Verif.Spec.FixedDeques
import Verif.Lemmas.FixedRingBuffer
import Verif.Props.C04_FixedRingBuffer
import Verif.Model.Biquad
import Verif.Spec.Lti
import Verif.Spec.Cascade
import Verif.Lemmas.Biquad
import Verif.Lemmas.Cascade
import Verif.Props.C06_Biquad
import Verif.Props.C12_Cascade
import Verif.Lemmas.Stability
import Verif.Props.C09_Stability
import Verif.Model.MovingFilters
import Verif.Spec.Moving
import Verif.Lemmas.Moving
import Verif.Props.C13_MovingFilters
import Verif.Model.Designers
import Verif.Spec.Response
import Verif.Lemmas.Response
import Verif.Props.C16_Rbj
import Verif.Props.C17_Zoelzer
import Verif.Props.C16_Prototype
import Verif.Model.Layout
import Verif.Model.AnalogDesign
import Verif.Spec.CascadeResponse
import Verif.Spec.PoleZero
import Verif.Lemmas.Layout
import Verif.Lemmas.Bilinear
import Verif.Lemmas.Chain
import Verif.Lemmas.PoleProducts
import Verif.Lemmas.AnalogDesign
import Verif.Lemmas.Chebyshev
import Verif.Props.C18_Bilinear
import Verif.Props.C19_Butterworth
import Verif.Props.C20_Layout
import Verif.Props.C57_Chebyshev
import Verif.Model.Memory
import Verif.Spec.Segments
import Verif.Lemmas.Memory
import Verif.Model.Sequences
import Verif.Lemmas.Extremum
import Verif.Props.C21_Clipping
import Verif.Props.C22_Linspace
import Verif.Props.C23_Search
import Verif.Props.C25_PadConcat
import Verif.Props.C26_Normalize
import Verif.Props.C34_Extrema
import Verif.Props.C60_Rounding
import Verif.Model.Strings
import Verif.Spec.Strings
import Verif.Model.Numeric
import Verif.Model.Statistics
import Verif.Spec.Statistics
import Verif.Lemmas.Statistics
import Verif.Model.Converters
import Verif.Props.C27_SplitJoin
import Verif.Props.C28_Trim
import Verif.Props.C29_PowerTwo
import Verif.Props.C30_Primes
import Verif.Props.C31_Moments
import Verif.Props.C33_Means
import Verif.Props.C36_Converters
import Verif.Props.C63_AudSpace
import Verif.Model.Windows
import Verif.Spec.Windows
import Verif.Props.C38_Windows
import Verif.Model.Oscillators
import Verif.Spec.Oscillators
import Verif.Props.C39_Oscillators
import Verif.Model.Envelopes
import Verif.Spec.Envelopes
import Verif.Props.C41_Adsr
import Verif.Props.C42_Ar
import Verif.Model.Io
import Verif.Props.C43_Handles
import Verif.Props.C44_Read
import Verif.Model.Spectral
import Verif.Spec.Spectral
import Verif.Lemmas.Fourier
import Verif.Lemmas.Spectral
import Verif.Props.C45_Transforms
import Verif.Props.C46_Convolution
import Verif.Props.C47_Engine
import Verif.Model.Lee
import Verif.Lemmas.Cosine
import Verif.Lemmas.Lee
import Verif.Props.C48_Lee
import Verif.Model.Features
import Verif.Spec.Features
import Verif.Lemmas.Features
import Verif.Props.C49_Features
import Verif.Props.C50_Rolloff
import Verif.Props.C51_Temporal
import Verif.Props.C52_Formulas
import Verif.Model.Noise
import Verif.Props.C53_Noise
import Verif.Spec.Environment
import Verif.Model.Environment
import Verif.Props.C54_Environment
import Verif.Spec.Cepstrum
import Verif.Props.C67_Hilbert
import Verif.Props.C68_Spectrum
import Verif.Props.C69_RealTransforms
import Verif.Props.C70_Cepstrum
import Verif.Spec.Band
import Verif.Model.Bands
import Verif.Lemmas.Quads
import Verif.Lemmas.Band
import Verif.Lemmas.BandMaps
import Verif.Lemmas.BandEdges
import Verif.Lemmas.BandChains
import Verif.Props.C71_Bands
import Verif.Spec.Shelf
import Verif.Model.ChebShelf
import Verif.Lemmas.ChebShelf
import Verif.Props.C74_ChebShelf
import Verif.Spec.Steady
import Verif.Lemmas.Steady
import Verif.Props.C75_Steady
import Verif.Model.Freq
import Verif.Spec.Freq
import Verif.Props.C76_Freq
import Verif.Model.Resampler
import Verif.Props.C77_Resampler
import Verif.Model.StringView
import Verif.Spec.StringView
import Verif.Lemmas.StringView
import Verif.Props.C79_StringViewFind
import Verif.Props.C80_StringView
import Verif.Model.Span
import Verif.Props.C81_Span
import Verif.Spec.Holders
import Verif.Model.Holders
import Verif.Props.C82_Optional
import Verif.Props.C83_Expected
import Verif.Spec.Numpy
import Verif.Model.PyBindings
import Verif.Props.C84_PyArrays
import Verif.Props.C85_PyPairs
import Verif.Props.C86_PyResults
import Verif.Spec.Logger
import Verif.Model.Logger
import Verif.Props.C87_Logger
import Verif.Model.LibraryInfo
import Verif.Props.C88_LibraryInfo
import Verif.Spec.Leq
import Verif.Model.ContinuousLeq
import Verif.Props.C89_ContinuousLeq
import Verif.Spec.NumpySpectral
import Verif.Model.PySpectral
import Verif.Props.C90_PySpectral
import Verif.Model.PyCreate
import Verif.Props.C91_PyCreate
import Verif.Spec.Float
import Verif.Lemmas.Float
import Verif.Model.RoundedMoving
import Verif.Lemmas.RoundedMoving
import Verif.Props.C92_RoundedMoving
import Verif.Model.RoundedOscillators
import Verif.Props.C93_RoundedOscillators
import Verif.Model.RoundedSums
import Verif.Props.C94_RoundedSums
import Verif.Props.C95_RoundedLinspace
import Verif.Props.C96_RoundedNormalize
import Verif.Model.PyObjects
import Verif.Props.C97_PyObjects
import Verif.Model.PyAuditory
import Verif.Props.C98_PyAuditory
import Verif.Model.PyStrings
import Verif.Lemmas.PyStrings
import Verif.Props.C99_PyStrings
import Verif.Spec.Subnormal
import Verif.Model.RoundedBiquad
import Verif.Lemmas.RoundedBiquad
import Verif.Lemmas.RoundedSilence
import Verif.Props.C100_RoundedBiquad
import Verif.Props.C101_RoundedSilence
import Verif.Spec.Boxes
import Verif.Model.AnyBox
import Verif.Lemmas.AnyBox
import Verif.Props.C102_Any
import Verif.Spec.Variants
import Verif.Model.Variant
import Verif.Props.C103_Variant
import Verif.Props.C104_VariantAccess
import Verif.Spec.Ieee
import Verif.Model.Extended
import Verif.Lemmas.Extended
import Verif.Props.C105_NonFinite
import Verif.Model.ExtendedReductions
import Verif.Props.C106_NanReductions
import Verif.Model.RoundedEnvelopes
import Verif.Lemmas.RoundedRamp
import Verif.Lemmas.RampDecision
import Verif.Props.C107_RoundedAdsr
import Verif.Model.FftObjects
import Verif.Props.C108_FftObjects
import Verif.Model.Threads
import Verif.Props.C109_Threads
import Verif.Model.RingBuffers
import Verif.Spec.RingBuffers
import Verif.Lemmas.RingBuffers
import Verif.Props.C110_RingBuffers
import Verif.Model.RingIterators
import Verif.Spec.RingIterators
import Verif.Lemmas.RingIterators
import Verif.Props.C111_RingIterators
import Verif.Model.RingPointers
import Verif.Lemmas.RingPointers
import Verif.Props.C112_RingPointers
import Verif.Spec.IntTypes
import Verif.Model.IntSamples
import Verif.Lemmas.IntSamples
import Verif.Props.C113_IntSamples
import Verif.Model.IntMoving
import Verif.Props.C114_IntMoving
import Verif.Spec.Libm
import Verif.Model.RoundedWindows
import Verif.Lemmas.RoundedWindows
import Verif.Lemmas.RoundedShapes
import Verif.Lemmas.RoundedWindowValues
import Verif.Lemmas.RoundedWindowPeaks
import Verif.Props.C115_RoundedWindows
import Verif.Model.RoundedRbj
import Verif.Lemmas.RoundedRbj
import Verif.Props.C116_RoundedRbj
import Verif.Spec.LibmLog
import Verif.Model.RoundedConverters
import Verif.Lemmas.RoundedConverters
import Verif.Props.C117_RoundedConverters
import Verif.Spec.Streams
import Verif.Model.InPlace
import Verif.Lemmas.InPlace
import Verif.Props.C118_InPlace
import Verif.Model.Pipeline
import Verif.Props.C119_Pipeline
import Verif.Spec.LibmExp
import Verif.Model.RoundedAuditory
import Verif.Lemmas.RoundedAuditory
import Verif.Props.C120_RoundedAuditory
import Verif.Spec.Agree
import Verif.Lemmas.Agree
import Verif.Model.RoundedFeatures
import Verif.Lemmas.RoundedFeatures
import Verif.Props.C121_RoundedFeatures
import Verif.Props.C122_RoundedMeans
import Verif.Model.RoundedMoments
import Verif.Model.RoundedCounts
import Verif.Props.C123_RoundedMoments
import Verif.Props.C124_RoundedCounts
import Verif.Model.RingExceptions
import Verif.Spec.DequeExceptions
import Verif.Lemmas.RingExceptions
import Verif.Props.C125_RingExceptions
import Verif.Model.RoundedShelves
import Verif.Lemmas.RoundedShelves
import Verif.Props.C126_RoundedShelves
import Verif.Model.Verdicts
import Verif.Props.C127_Verdicts
import Verif.Spec.Gain
import Verif.Lemmas.Gain
import Verif.Props.C128_Gain
import Verif.Spec.Units
import Verif.Lemmas.Units
import Verif.Props.C129_Units
import Verif.Spec.Energy
import Verif.Lemmas.Energy
import Verif.Lemmas.EnergyChain
import Verif.Props.C130_Energy
import Verif.Spec.OverlapAdd
import Verif.Props.C131_OverlapAdd
import Verif.Lemmas.Order
import Verif.Spec.Sounding
import Verif.Props.C132_Order
import Verif.Props.C133_Zeros
import Verif.Model.MuLaw
import Verif.Spec.MuLaw
import Verif.Props.C134_MuLaw
import Verif.Model.RoundedZoelzer
import Verif.Lemmas.RoundedZoelzer
import Verif.Props.C135_RoundedZoelzer
import Verif.Lemmas.Tone
import Verif.Props.C136_PureTones
import Verif.Lemmas.Convolution
import Verif.Props.C137_ConvolutionAlgebra
import Verif.Lemmas.Perturbation
import Verif.Props.C138_DesignedFilters
import Verif.Lemmas.Reversal
import Verif.Props.C139_Backwards
import Verif.Spec.Tone
import Verif.Props.C140_Retuning
import Verif.Lemmas.Undo
import Verif.Lemmas.UndoBand
import Verif.Props.C141_Undo
import Verif.Model.Tracks
import Verif.Lemmas.Tracks
import Verif.Props.C142_Channels
import Verif.Model.LibResample
import Verif.Props.C143_LibResample
import Verif.Model.Histogram
import Verif.Props.C144_Histogram
import Verif.Props.C145_Noise
import Verif.Props.C146_Leakage
import Verif.Props.C147_CArrays
import Verif.Props.C148_StdPolar
import Verif.Props.C149_Bands
import Verif.Props.C150_Shape
import Verif.Props.C150_Resonance
import Verif.Spec.Blocks
import Verif.Props.C151_Blocks
import Verif.Props.C151_Joins
import Verif.Lemmas.Multirate
import Verif.Props.C152_Multirate
import Verif.Model.RoundedElements
import Verif.Lemmas.FloatExact
import Verif.Props.C153_Elements
import Verif.Spec.MovingSignals
import Verif.Lemmas.MovingSignals
import Verif.Props.C154_MovingSignals
import Verif.Spec.Polarity
import Verif.Lemmas.Polarity
import Verif.Props.C155_Polarity
import Verif.Spec.Overshoot
import Verif.Lemmas.Overshoot
import Verif.Props.C156_Overshoot
import Verif.Spec.Ramp
import Verif.Lemmas.Ramp
import Verif.Props.C157_Ramps
import Verif.Spec.Ringing
import Verif.Lemmas.Ringing
import Verif.Props.C158_Ringing
import Verif.Spec.Close
import Verif.Lemmas.Close
import Verif.Props.C159_Disturbances
import Verif.Spec.Compare
import Verif.Lemmas.Compare
import Verif.Props.C160_Comparison
import Verif.Props.C161_Spread
import Verif.Props.C162_DisturbedTransforms
import Verif.Props.C163_Differences
import Verif.Props.C164_Mixtures
import Verif.Props.C165_Extremes
import Verif.Props.C166_Unstable
import Verif.Props.C167_Shapes
import Verif.Props.C168_Uncertainty
import Verif.Props.C169_Lossless
import Verif.Props.C170_Khinchin
import Verif.Props.C171_TransformEnergy
import Verif.Props.C172_WindowShape
import Verif.Props.C173_Ratios
import Verif.Props.C174_Homomorphic
import Verif.Props.C175_ConvolutionMoments
import Verif.Props.C176_Products
import Verif.Props.C177_ConvolutionBounds
import Verif.Props.C178_DerivativeFilters
import Verif.Props.C179_AverageFilters
import Verif.Props.C180_Quadrature
import Verif.Props.C181_Backward
import Verif.Props.C182_Totals
import Verif.Props.C183_Centres
import Verif.Props.C184_Periodic
import Verif.Props.C185_Lines
import Verif.Props.C186_PeriodicPower
import Verif.Props.C187_Harmonics
import Verif.Props.C188_Fading
import Verif.Props.C189_InfiniteTotals
import Verif.Props.C190_MovingLimits

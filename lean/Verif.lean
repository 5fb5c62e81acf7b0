import Verif.Props.Random
import Verif.Props.HashTable
import Verif.Props.Lattice
import Verif.Props.Params
import Verif.Props.ParamsInterp
import Verif.Props.Kinetic
import Verif.Props.KineticExp
import Verif.Props.Stratonovich
import Verif.Props.TimeFlow
import Verif.Props.Greens
import Verif.Lemmas.LapackExists
import Verif.Props.MonteCarlo
import Verif.Props.Phonon
import Verif.Props.Sign
import Verif.Props.Measurement
import Verif.Props.MeasurementUneq
import Verif.Props.MeasurementPh
import Verif.Props.PhononBuffer
import Verif.Props.BlockCyclic
import Verif.Props.GreensUneq
import Verif.Props.Files
import Verif.Lemmas.Restart
import Verif.Props.Main
import Verif.Props.Program
import Verif.Props.Runs
import Verif.Props.Extend
import Verif.Props.Lost
import Verif.Props.PhononLost
import Verif.Props.Profiler
import Verif.Lemmas.MeasMap
import Verif.Lemmas.PhononDefined
import Verif.Props.Period
import Verif.Props.Fock
import Verif.Props.Hubbard
import Verif.Props.HubbardProgram
import Verif.Props.Parallel
import Verif.Lemmas.Metropolis
import Verif.Props.Stationary
import Verif.Props.IdealSource
import Verif.Props.Expected
import Verif.Props.ExpectedUneq
import Verif.Props.ExpectedProgram
import Verif.Props.Reported
import Verif.Props.Means
import Verif.Lemmas.NullSet
import Verif.Props.StationaryPh
import Verif.Props.AlmostSure
import Verif.Props.AlmostSureProgram
import Verif.Lemmas.DrawSeq
import Verif.Props.FreshStart
import Verif.Lemmas.PathIntegral
import Verif.Props.Holstein
import Verif.Props.ExpectedPh
import Verif.Props.ExpectedPhProgram
import Verif.Props.Reference
import Verif.Props.Textbook
import Verif.Model.MeasurementFull
import Verif.Lemmas.MeasureFull
import Verif.Props.MeasurementFull
import Verif.Lemmas.Ergodic
import Verif.Lemmas.FlipChain
import Verif.Props.FieldChain
import Verif.Props.Convergence
import Verif.Props.ConvergenceProgram
import Verif.Props.Reach
import Verif.Props.IndexProgram
import Verif.Props.Fourier
import Verif.Props.Trotter
import Verif.Props.HeapProgram
import Verif.Props.FreeRun
import Verif.Props.SpinSymmetry
import Verif.Props.Names
import Verif.Props.Equidistribution
import Verif.Props.Normal
import Verif.Model.Decimal
import Verif.Props.Decimal
import Verif.Props.ParamsComplete
import Verif.Props.SampleRuns
import Verif.Lemmas.GenericWeight
import Verif.Lemmas.ShortSteps
import Verif.Props.Generic
import Verif.Lemmas.MeanErgodic
import Verif.Lemmas.Links
import Verif.Lemmas.Rigid
import Verif.Lemmas.Settle
import Verif.Props.PathChain
import Verif.Props.ResponsivePh
import Verif.Props.ConvergencePh
import Verif.Props.LongRunsPh
import Verif.Lemmas.Reflection
import Verif.Props.PositiveZ
import Verif.Props.LongRunsPhProgram
import Verif.Model.Counters32
import Verif.Props.Counters32
import Verif.Props.Occupation
import Verif.Lemmas.SitePerm
import Verif.Props.Translation
import Verif.Model.MainFull
import Verif.Lemmas.MeasFwd
import Verif.Lemmas.FullFollows
import Verif.Props.FullProgram
import Verif.Props.FullConverge
import Verif.Model.StratonovichRound
import Verif.Props.StratonovichRound
import Verif.Model.Inexact
import Verif.Lemmas.Rough
import Verif.Props.Inexact
import Verif.Props.InexactMean
import Verif.Model.Rounded
import Verif.Lemmas.Ultra
import Verif.Props.RoundedGreens
import Verif.Props.RoundedSteps
import Verif.Props.RoundedRun
import Verif.Props.RoundedTracking
import Verif.Props.RoundedMeasure
import Verif.Props.Rounded
import Verif.Props.RoundedExists
import Verif.Lemmas.FirstOrder
import Verif.Model.RoundedTables
import Verif.Props.RoundedTables
import Verif.Props.ProgressReport
import Verif.Model.RoundedUneq
import Verif.Props.RoundedBlocks
import Verif.Props.RoundedUneqGreen
import Verif.Props.RoundedUneqMeasure
import Verif.Props.RoundedUneqClose
import Verif.Props.RoundedAll
import Verif.Props.RoundedAllExists
import Verif.Lemmas.GramTrace
import Verif.Props.TimeReflection
import Verif.Model.Dupio
import Verif.Props.Dupio
import Verif.Lemmas.Scale
import Verif.Model.Reference
import Verif.Props.ReferenceBlas
import Verif.Props.ReferenceQR
import Verif.Props.ReferenceLU
import Verif.Props.ReferenceCalls
import Verif.Props.ReferenceRun
import Verif.Props.Antiferro
import Verif.Props.AntiferroLimit
import Verif.Model.RoundedPhonon
import Verif.Props.RoundedLogdet
import Verif.Props.RoundedPhSteps
import Verif.Props.RoundedPhMoves
import Verif.Props.RoundedPhTies
import Verif.Props.RoundedPhRun
import Verif.Props.RoundedPhMeasure
import Verif.Props.RoundedPhProgram
import Verif.Props.RoundedPhLong
import Verif.Model.Jacobi
import Verif.Lemmas.Jacobi
import Verif.Props.Jacobi
import Verif.Props.JacobiRun
import Verif.Model.Binary
import Verif.Props.Binary
import Verif.Model.SumOrder
import Verif.Props.SumOrder
import Verif.Props.FreeUneq
import Verif.Model.ProfileTrace
import Verif.Props.ProfileTrace
import Verif.Model.Debug
import Verif.Props.Debug

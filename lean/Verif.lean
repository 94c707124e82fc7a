import Verif.PIS.Uniform
import Verif.Util.Props
import Verif.Util.Lcm
import Verif.Util.SequentialProps
import Verif.Util.SequentialCalls
import Verif.Period.Props
import Verif.Period.Factor
import Verif.Samples.XorShiftProps
import Verif.Search.Lemmas
import Verif.Samples.XorShiftSearch
import Verif.MT.Props
import Verif.MT.Reference
import Verif.Lin.Props
import Verif.Samples.TinyMTProps
import Verif.Temper.BestBits
import Verif.Search.RTProps
import Verif.Samples.TinyMTDCProps
import Verif.Samples.MTDCProps
import Verif.Samples.RMTProps
import Verif.Spec.RingHi
import Verif.Samples.MTGPProps
import Verif.Samples.MTGPDCProps
import Verif.Samples.W128Props
import Verif.Samples.SFMTProps
import Verif.Samples.SFMTCert
import Verif.Samples.DSFMTProps
import Verif.Spec.Dot
import Verif.Parity.Props
import Verif.Parity.SFMT
import Verif.Parity.FixProps
import Verif.Parity.Example
import Verif.Mexp.Props
import Verif.SIMD.Props
import Verif.SIMD.SFMT
import Verif.SIMD.Counter
import Verif.SIMD.DSFMT
import Verif.SIMD.CounterD
import Verif.Anni.Props
import Verif.Anni.Instances
import Verif.Anni.Total
import Verif.Anni.Search
import Verif.Samples.SFMTDC
import Verif.Samples.SFMTDCProps
import Verif.Samples.DSFMTDC
import Verif.Samples.DSFMTDCProps
import Verif.Samples.LineText
import Verif.Samples.LineTextProps
import Verif.SIMD.Sum
import Verif.Samples.SFMTTools
import Verif.Samples.SFMTToolsProps
import Verif.Samples.DSFMTTools
import Verif.Samples.DSFMTToolsProps
import Verif.Search.Obs
import Verif.Search.Reducible
import Verif.Search.ReducibleProps
import Verif.Search.ReducibleExample
import Verif.Search.ReducibleRT
import Verif.Search.ReducibleRTProps
import Verif.Search.ReducibleRTExample
import Verif.Samples.RMTTools
import Verif.Samples.RMTToolsProps
import Verif.GF2.Engine
import Verif.GF2.MTChar
import Verif.GF2.MT32
import Verif.GF2.MT32a
import Verif.GF2.MT32b
import Verif.GF2.MT32c
import Verif.GF2.MT32d
import Verif.GF2.MT64
import Verif.GF2.MT64a
import Verif.GF2.MT64b
import Verif.GF2.MT64c
import Verif.GF2.MT64d
import Verif.GF2.MTPrim
import Verif.MT.Orbit
import Verif.MT.PeriodProps
import Verif.Spec.Stream
import Verif.GF2.Cert
import Verif.GF2.Small
import Verif.Samples.TinyRef
import Verif.Samples.TinyRefLemmas
import Verif.Samples.TinyRefProps
import Verif.Samples.TinyFloatProps
import Verif.Samples.XorShiftFixed
import Verif.Samples.XorShiftFixedProps
import Verif.Samples.XorShift3
import Verif.Samples.XorShift3Props
import Verif.PIS.Bounds
import Verif.Samples.MT1
import Verif.Samples.MT1Props
import Verif.Samples.MT2
import Verif.Samples.MT2Props
import Verif.Samples.MT2Example
import Verif.Samples.RMTDC
import Verif.Samples.RMTDCLemmas
import Verif.Samples.RMTDCGood
import Verif.Samples.RMTDCProps
import Verif.Samples.RMTDCExample
import Verif.Anni.Finds
import Verif.GF2.Large
import Verif.Samples.SFMTDCExample
import Verif.Samples.DSFMTDCExample
import Verif.Samples.MTGPDCExponents
import Verif.Samples.Options
import Verif.Samples.OptionsProps
import Verif.Samples.Programs
import Verif.Samples.ProgramsProps
import Verif.GF2.Irred
import Verif.Tests.Gen
import Verif.Tests.GenLemmas
import Verif.Tests.GenProps
import Verif.Tests.PeriodTest
import Verif.Tests.PeriodLemmas
import Verif.Tests.PeriodProps
import Verif.Tests.RTinyTest
import Verif.Tests.RTinyTestProps
import Verif.GF2.Rank
import Verif.Tests.EquidistTest
import Verif.Tests.EquidistProps
import Verif.Tests.Suite
import Verif.Tests.SuiteLemmas
import Verif.Tests.MTWords
import Verif.Tests.SuiteCert
import Verif.Tests.SuiteProps
import Verif.GF2.IrredList
import Verif.Tests.RLittleTest
import Verif.Tests.RLittleCert
import Verif.Tests.RLittleProps
import Verif.Tests.RLittleHead
import Verif.GF2.NotEquidist
import Verif.Samples.XorShiftTable
import Verif.Samples.XorShiftTableProps
import Verif.Samples.PeriodTools
import Verif.Anni.Modes
import Verif.Samples.PeriodToolsProps
import Verif.Temper.Undef
import Verif.Temper.Slots
import Verif.Mexp.Entries
import Verif.Samples.OldFormat
import Verif.Samples.OldFormatProps
import Verif.Samples.LinearityTools
import Verif.Samples.LinearityToolsProps
import Verif.Anni.See
import Verif.Samples.ParityTest
import Verif.Samples.ParityTestLemmas
import Verif.Samples.ParityTestProps
import Verif.Samples.NumberText
import Verif.Samples.LineLayout
import Verif.Samples.FixTest
import Verif.Samples.FixTestProps
import Verif.Samples.OptionsMore
import Verif.Samples.EquidistMain
import Verif.Samples.EquidistMainProps
import Verif.Samples.Getopt
import Verif.Samples.GetoptLemmas
import Verif.Samples.GetoptProps
import Verif.Samples.GetoptLong
import Verif.Samples.GetoptLongLemmas
import Verif.Samples.GetoptLongProps
import Verif.Samples.OldCommand
import Verif.Samples.OldCommandProps
import Verif.Samples.Truncate
import Verif.Samples.SearchText
import Verif.Samples.SearchTextLemmas
import Verif.Samples.SearchTextProps
import Verif.Samples.PolyText
import Verif.Samples.PolyTextProps
import Verif.Search.Verbose
import Verif.Search.VerboseLemmas
import Verif.Search.VerboseProps
import Verif.Samples.TinyMTVerbose
import Verif.Samples.TinyMTVerboseProps
import Verif.Search.VerboseExample
import Verif.Samples.MT2Verbose
import Verif.Samples.MT2VerboseProps
import Verif.Samples.MT2VerboseExample
import Verif.Samples.MTGPVerbose
import Verif.Samples.MTGPVerboseProps
import Verif.Samples.RMTVerbose
import Verif.Samples.RMTVerboseProps
import Verif.Samples.RMTVerboseExample
import Verif.Samples.VerboseTables
import Verif.MT.SeedInj
import Verif.MT.SeedInjProps
import Verif.Samples.TinyKeyProps
import Verif.Samples.SeedLoop
import Verif.Samples.SeedProps
import Verif.Samples.Setters
import Verif.Samples.SettersProps
import Verif.Search.First
import Verif.Samples.FirstProps
import Verif.Samples.FirstClass
import Verif.Period.CtorProps
import Verif.Samples.DumpProps
import Verif.Concrete
import Verif.Search.CycleProps
import Verif.Search.FirstRT
import Verif.Samples.MT2First
import Verif.Samples.MT2FirstProps
import Verif.Samples.MT2FirstExample
import Verif.Temper.Rel
import Verif.Samples.MTGPFirst
import Verif.Samples.MTGPFirstProps
import Verif.Samples.MTGPFirstExample
import Verif.Search.Picks
import Verif.Samples.SFMTSets
import Verif.Samples.DSFMTSets
import Verif.Samples.RMTSets
import Verif.Samples.SetsExample
import Verif.Search.PicksMore
import Verif.Samples.Repeat
import Verif.Samples.RepeatExample
import Verif.Samples.TinyMTFirst
import Verif.Samples.TinyMTCert
import Verif.Samples.TinyMTDefault
import Verif.Samples.TinyMTDefaultText
import Verif.Samples.TinyMTDistinct
import Verif.Samples.RepeatMore
import Verif.Samples.RepeatMoreExample
import Verif.Samples.TinyMTSeed
import Verif.Samples.TinySeedStreams
import Verif.Samples.TinyMTVariants
import Verif.Samples.TinyMTVariantsProps
import Verif.Samples.TinyMTUniform
import Verif.Util.RangeDist
import Verif.MT.OneStream
import Verif.MT.OtherCount
import Verif.MT.Complexity
import Verif.Search.ComplexityProps
import Verif.Samples.TinyOneStream
import Verif.Samples.TinyUniform64
import Verif.Samples.XorShiftTuples

import Verif.Base.AMap
import Verif.Props.Path
import Verif.Props.Event
import Verif.Props.Pipeline
import Verif.Props.PipelineCounts
import Verif.Props.PipelineNew
import Verif.Props.Registry
import Verif.Props.PipelineConc
import Verif.Props.Processors
import Verif.Props.UtilAppend
import Verif.Props.SetProc
import Verif.Props.ProcLaws
import Verif.Props.Reuse
import Verif.Props.Wire
import Verif.Props.Convert
import Verif.Props.Time
import Verif.Props.Reflect
import Verif.Props.Json
import Verif.Props.Cli
import Verif.Props.ConfigJson
import Verif.Props.Pure
import Verif.Props.Plan
import Verif.Props.Programs
import Verif.Props.PureLaws
import Verif.Props.ProgSamples
import Verif.Props.Metrics
import Verif.Props.JsonInto
import Verif.Props.Mem
import Verif.Props.Access
import Verif.Props.Reorder
import Verif.Props.NilEvent
import Verif.Props.Leaves
import Verif.Props.WireText
import Verif.Props.Client
import Verif.Props.ClientSamples
import Verif.Props.Format
import Verif.Props.Unpack
import Verif.Props.Goro
import Verif.Props.GoroSamples
import Verif.Props.Commute
import Verif.Props.PoolSamples
import Verif.Props.GenSamples
import Verif.Props.Cycle
import Verif.Props.PutAny
import Verif.Props.Main
import Verif.Props.GoJson
import Verif.Props.NewErrors
import Verif.Props.ConfigString
import Verif.Props.Slices
import Verif.Props.ErrTexts
import Verif.Props.ErrTextsAny
import Verif.Props.ProgramTexts
import Verif.Props.Quote
import Verif.Props.RegTexts
import Verif.Props.EmptyReads
import Verif.Props.ReflectTexts
import Verif.Props.Stream
import Verif.Props.PbGet
import Verif.Props.Text
import Verif.Props.Yaml
import Verif.Props.YamlOrder
import Verif.Props.YamlJson
import Verif.Props.YamlWrite
import Verif.Props.YamlMerge
import Verif.Props.Schema
import Verif.Props.Divide
import Verif.Props.Twice
import Verif.Props.HandMade
import Verif.Props.Beside
import Verif.Props.RepoTests
import Verif.Props.Hops
import Verif.Props.Bomb
import Verif.Props.Cost
import Verif.Props.WireStrict
import Verif.Props.ConfigAny
import Verif.Props.RegistryConc
import Verif.Props.NoNils
import Verif.Props.Truncate
import Verif.Props.Crash
import Verif.Props.SameJson
import Verif.Props.SameProto
import Verif.Props.JsonGet
import Verif.Props.TimeOrder
import Verif.Props.SameGoMap
import Verif.Props.DeleteAny
import Verif.Props.CycleAny
import Verif.Props.PutEffect
import Verif.Props.NoCommon
import Verif.Props.StepChange
import Verif.Props.ProcessBeside
import Verif.Props.ProcessChanges
import Verif.Props.AppendShared
import Verif.Props.WorksToo
import Verif.Props.ByTurns

import Verif.Base
import Verif.Stream.Model
import Verif.Stream.Spec
import Verif.Stream.Lemmas
import Verif.Stream.Ops
import Verif.Stream.History
import Verif.Stream.Refine
import Verif.Stream.Props
import Verif.Stream.View
import Verif.Stream.ViewSpec
import Verif.Stream.ViewLemmas
import Verif.Stream.ViewLemmas2
import Verif.Stream.ViewLemmas3
import Verif.Stream.ViewProps
import Verif.Stream.ViewProps2
import Verif.Parse.Machine
import Verif.Parse.Grammar
import Verif.Parse.Spec
import Verif.Parse.Sim
import Verif.Parse.Sim2
import Verif.Parse.Sim3
import Verif.Parse.Sim4
import Verif.Parse.Sim5
import Verif.Parse.Random
import Verif.Parse.Refine
import Verif.Parse.Mono
import Verif.Parse.Props
import Verif.Parse.RandomProps
import Verif.Parse.Wait
import Verif.Sink.Model
import Verif.Sink.Spec
import Verif.Sink.Lemmas
import Verif.Sink.Add
import Verif.Sink.Deliver
import Verif.Sink.Write
import Verif.Sink.General
import Verif.Sink.Law
import Verif.Sink.Reassembly
import Verif.Sink.History
import Verif.Sink.Complete
import Verif.Ints.Model
import Verif.Ints.Spec
import Verif.Ints.Pack
import Verif.Ints.Bits
import Verif.Ints.Pow
import Verif.Ints.Text
import Verif.Ints.Order
import Verif.Bytes.Model
import Verif.Bytes.Spec
import Verif.Bytes.Split
import Verif.Bytes.Search
import Verif.Bytes.Escape
import Verif.Net.Address
import Verif.Net.Port
import Verif.Net.Time
import Verif.Cont.VecModel
import Verif.Cont.VecSpec
import Verif.Cont.VecProps
import Verif.Cont.MapModel
import Verif.Cont.MapSpec
import Verif.Cont.MapLists
import Verif.Cont.MapProps
import Verif.Fiber.Model
import Verif.Fiber.Spec
import Verif.Fiber.Inv
import Verif.Fiber.Steps
import Verif.Fiber.Life
import Verif.Fiber.Count
import Verif.Fiber.Props
import Verif.Fiber.Faithful
import Verif.Ref.Spec
import Verif.Ref.Model
import Verif.Ref.Inv
import Verif.Ref.Steps
import Verif.Ref.Props
import Verif.Grammar.Spec
import Verif.Grammar.Model
import Verif.Grammar.Tables
import Verif.Grammar.Machine
import Verif.Grammar.Parser
import Verif.Grammar.Complete
import Verif.Grammar.Exact
import Verif.Grammar.Switch
import Verif.Grammar.Witness
import Verif.Grammar.Findings
import Verif.Grammar.Build
import Verif.Grammar.Longest
import Verif.Text.Spec
import Verif.Text.Model
import Verif.Text.Utf8
import Verif.Text.Decode
import Verif.Text.Utf16
import Verif.Text.Case
import Verif.Text.Escape
import Verif.Text.Literal
import Verif.Opt.Lang
import Verif.Opt.Cfg
import Verif.Opt.Flow
import Verif.Opt.New
import Verif.Opt.Sim
import Verif.Opt.Graph
import Verif.Opt.Dce
import Verif.Opt.DceSound
import Verif.Opt.Unreach
import Verif.Opt.Rounds
import Verif.Opt.Det
import Verif.Opt.Interp
import Verif.Opt.Witness
import Verif.Opt.Prop
import Verif.Opt.PropSound
import Verif.Opt.PropRounds
import Verif.Opt.PropWitness
import Verif.Opt.Move
import Verif.Opt.Liveness
import Verif.Opt.MoveSound
import Verif.Opt.MoveWitness
import Verif.Regex.Model
import Verif.Regex.Cache
import Verif.Regex.Spec
import Verif.Regex.Match
import Verif.Regex.Find
import Verif.Regex.View
import Verif.Regex.Witness
import Verif.Parse.SimRegex
import Verif.Sync.Model
import Verif.Sync.Spec
import Verif.Sync.Base
import Verif.Sync.Search
import Verif.Sync.Elem
import Verif.Sync.Recover
import Verif.Sync.List
import Verif.Sync.Ideal
import Verif.Sync.Ends
import Verif.Sync.Props
import Verif.Sync.Witness
import Verif.Sync.Unit
import Verif.Sync.UnitSim
import Verif.Sync.UnitProps
import Verif.Sync.UnitWitness
import Verif.Driver.Registry
import Verif.Driver.RegistrySpec
import Verif.Driver.RegistryProps
import Verif.Driver.Shape
import Verif.Driver.Owning
import Verif.Driver.Feed
import Verif.Driver.FeedSpec
import Verif.Driver.FeedProps
import Verif.Driver.Batch
import Verif.Driver.BatchSpec
import Verif.Driver.BatchRead
import Verif.Driver.BatchLocal
import Verif.Driver.BatchProps
import Verif.Driver.BatchExtract
import Verif.Driver.BatchConn
import Verif.Driver.BatchFeed
import Verif.Filter.Model
import Verif.Filter.Spec
import Verif.Filter.Events
import Verif.Filter.Chunks
import Verif.Filter.Sim
import Verif.Filter.Chain
import Verif.Filter.Props
import Verif.Filter.Witness
import Verif.Filter.SinkModel
import Verif.Filter.SinkSim
import Verif.Filter.SinkProps
import Verif.Filter.SinkReassembly
import Verif.Filter.SinkHistory
import Verif.Filter.SinkWitness
import Verif.Front.Preproc
import Verif.Front.PreprocSpec
import Verif.Front.PreprocCond
import Verif.Front.PreprocSound
import Verif.Front.PreprocProps
import Verif.Front.PreprocWitness
import Verif.Front.Linker
import Verif.Front.Fold
import Verif.Front.FoldProps
import Verif.Front.FoldWitness
import Verif.Front.Types
import Verif.Front.TypesSpec
import Verif.Front.TypesDecode
import Verif.Front.TypesRound
import Verif.Front.TypesProps
import Verif.Front.TypesWitness
import Verif.Front.Names
import Verif.Front.NamesProps
import Verif.Front.NamesWitness
import Verif.Opt.Flatten
import Verif.Opt.FlattenProps
import Verif.Opt.FlattenWitness
import Verif.Front.Coerce
import Verif.Front.CoerceSpec
import Verif.Front.CoerceProps
import Verif.Front.CoerceSound
import Verif.Front.CoerceMain
import Verif.Front.CoerceLaws
import Verif.Front.CoerceWitness
import Verif.Front.Ctl
import Verif.Front.CtlSpec
import Verif.Front.CtlProps
import Verif.Front.CtlJumps
import Verif.Front.CtlMain
import Verif.Front.CtlFinal
import Verif.Front.CtlWitness
import Verif.Front.Enum
import Verif.Front.EnumProps
import Verif.Front.Scope
import Verif.Front.ScopeSpec
import Verif.Front.ScopeFind
import Verif.Front.ScopeProps
import Verif.Front.ScopeMain
import Verif.Front.ScopeWitness
import Verif.Opt.Whole
import Verif.Opt.WholeMono
import Verif.Opt.DeadStatic
import Verif.Opt.DeadStaticSpec
import Verif.Opt.DeadStaticProps
import Verif.Opt.DeadStaticMain
import Verif.Opt.DeadStaticEnds
import Verif.Opt.DeadStaticWitness
import Verif.Opt.ParamsSpec
import Verif.Opt.Params
import Verif.Opt.ParamsRel
import Verif.Opt.ParamsPromote
import Verif.Opt.ParamsPromoteMain
import Verif.Opt.ParamsPrune
import Verif.Opt.ParamsPruneMain
import Verif.Opt.ParamsMods
import Verif.Opt.ParamsKeep
import Verif.Opt.ParamsMain
import Verif.Opt.ParamsCompiles
import Verif.Opt.ParamsWitness
import Verif.Opt.Returns
import Verif.Opt.ReturnsPass
import Verif.Opt.ReturnsSpec
import Verif.Opt.ReturnsFrame
import Verif.Opt.ReturnsBack
import Verif.Opt.ReturnsCollect
import Verif.Opt.ReturnsMain
import Verif.Opt.ReturnsThm
import Verif.Opt.ReturnsWitness
import Verif.Front.OverloadLaws
import Verif.Front.OverloadWitness
import Verif.Front.EmitSpec
import Verif.Front.EmitCxx
import Verif.Front.Emit
import Verif.Front.EmitMain
import Verif.Front.EmitWitness
import Verif.Opt.Fields
import Verif.Opt.FieldsSpec
import Verif.Opt.FieldsRel
import Verif.Opt.FieldsMain
import Verif.Opt.FieldsThm
import Verif.Opt.FieldsGone
import Verif.Opt.FieldsTwo
import Verif.Opt.FieldsWitness
import Verif.Opt.Peep
import Verif.Opt.PeepSpec
import Verif.Opt.PeepExpr
import Verif.Opt.PeepMain
import Verif.Opt.PeepWitness
import Verif.Opt.Feat
import Verif.Opt.FeatSpec
import Verif.Opt.FeatMain
import Verif.Opt.FeatNeed
import Verif.Opt.FeatWitness
import Verif.Ref.Intrusive
import Verif.Ref.IntrusiveSpec
import Verif.Ref.IntrusiveMain
import Verif.Ref.IntrusiveWitness
import Verif.Prof.Model
import Verif.Prof.Spec
import Verif.Prof.Main
import Verif.Prof.Thm
import Verif.Prof.Witness
import Verif.Boot.Model
import Verif.Boot.Spec
import Verif.Boot.Main
import Verif.Boot.Witness

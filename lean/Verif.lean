import Verif.Model.Filter
import Verif.Spec.Bits
import Verif.Proofs.Filter
import Verif.Props.Filter
import Verif.Proofs.Bits
import Verif.Model.Strings
import Verif.Proofs.Strings
import Verif.Props.Strings
import Verif.Model.Subs
import Verif.Spec.Subs
import Verif.Proofs.Subs
import Verif.Props.Subs
import Verif.Model.ListEngine
import Verif.Proofs.ListEngine
import Verif.Props.ListEngine
import Verif.Model.Patricia
import Verif.Proofs.Patricia
import Verif.Proofs.PatriciaUpdate
import Verif.Spec.Trie
import Verif.Proofs.PatriciaStore
import Verif.Proofs.PatriciaShape
import Verif.Proofs.PatriciaGrow
import Verif.Proofs.PatriciaDamage
import Verif.Props.Patricia
import Verif.Props.PatriciaUpdate
import Verif.Model.Linked
import Verif.Spec.Linked
import Verif.Proofs.Linked
import Verif.Props.Linked
import Verif.Model.Splay
import Verif.Spec.Splay
import Verif.Proofs.Splay
import Verif.Proofs.SplayUpdate
import Verif.Proofs.Ids
import Verif.Proofs.SplayExact
import Verif.Props.Splay
import Verif.Model.Heap
import Verif.Model.Legacy
import Verif.Spec.Legacy
import Verif.Proofs.Heap
import Verif.Proofs.Legacy
import Verif.Proofs.LegacyHistory
import Verif.Props.Legacy
import Verif.Model.Translate
import Verif.Spec.EPC
import Verif.Proofs.Translate
import Verif.Props.Translate
import Verif.Model.Encode
import Verif.Spec.Encode
import Verif.Proofs.Encode
import Verif.Proofs.Scheme
import Verif.Props.Encode
import Verif.Proofs.Iso
import Verif.Props.Iso
import Verif.Model.Composition
import Verif.Spec.Composition
import Verif.Proofs.Composition
import Verif.Props.Composition
import Verif.Model.Load
import Verif.Spec.Load
import Verif.Proofs.Load
import Verif.Props.Load
import Verif.Model.Gob
import Verif.Spec.Gob
import Verif.Proofs.Gob
import Verif.Props.Gob
import Verif.Model.Factory
import Verif.Spec.Factory
import Verif.Proofs.Factory
import Verif.Proofs.FactoryReports
import Verif.Proofs.FactoryCounts
import Verif.Proofs.FactorySelect
import Verif.Proofs.FactoryMatched
import Verif.Proofs.FactoryProgress
import Verif.Proofs.FactoryHits
import Verif.Proofs.FactoryNotice
import Verif.Props.Factory
import Verif.Proofs.FactoryVisit
import Verif.Props.FactoryVisit
import Verif.Model.Main
import Verif.Model.Stat
import Verif.Spec.Main
import Verif.Proofs.Main
import Verif.Props.Main
import Verif.Spec.Stat
import Verif.Props.Stat
import Verif.Model.Memory
import Verif.Spec.Memory
import Verif.Proofs.Memory
import Verif.Proofs.MemoryBuild
import Verif.Props.Memory
import Verif.Model.MemoryPatricia
import Verif.Spec.MemoryPatricia
import Verif.Proofs.MemoryPatricia
import Verif.Props.MemoryPatricia
import Verif.Model.Dump
import Verif.Spec.Dump
import Verif.Proofs.Dump
import Verif.Proofs.DumpReach
import Verif.Proofs.DumpNested
import Verif.Props.Dump
import Verif.Model.Generate
import Verif.Spec.Generate
import Verif.Proofs.Generate
import Verif.Props.Generate
import Verif.Model.Dataset
import Verif.Spec.Dataset
import Verif.Proofs.Dataset
import Verif.Props.Dataset
import Verif.Model.Equal
import Verif.Spec.Equal
import Verif.Props.Equal
import Verif.Proofs.FactoryRest
import Verif.Props.FactoryRest
import Verif.Spec.Strings
import Verif.Proofs.PartialLCP
import Verif.Model.PatSubset
import Verif.Proofs.PatSubset
import Verif.Props.PatSubset
import Verif.Proofs.ParseUint
import Verif.Props.FilterValue
import Verif.Spec.Random
import Verif.Props.Random
import Verif.Model.LegacyDump
import Verif.Spec.LegacyDump
import Verif.Proofs.LegacyDump
import Verif.Props.LegacyDump
import Verif.Model.DatasetRun
import Verif.Spec.DatasetRun
import Verif.Proofs.DatasetRun
import Verif.Props.DatasetRun
import Verif.Spec.EndToEnd
import Verif.Props.EndToEnd
import Verif.Model.FcRun
import Verif.Spec.FcRun
import Verif.Proofs.FcRun
import Verif.Props.FcRun
import Verif.Model.Engines
import Verif.Spec.Engines
import Verif.Proofs.Engines
import Verif.Props.Engines
import Verif.Model.Whole
import Verif.Spec.Whole
import Verif.Proofs.Whole
import Verif.Proofs.WholeRest
import Verif.Proofs.WholeExec
import Verif.Props.Whole
import Verif.Spec.Damage
import Verif.Proofs.Damage
import Verif.Props.Damage
import Verif.Props.Fails
import Verif.Model.Csv
import Verif.Spec.Csv
import Verif.Proofs.Csv
import Verif.Props.Csv
import Verif.Props.Short
import Verif.Props.Mixed
import Verif.Props.Machine
import Verif.Props.MixedRun
import Verif.Props.Placed
import Verif.Props.Shelf
import Verif.Props.ForkRun
import Verif.Props.Rack
import Verif.Model.Draws
import Verif.Spec.Draws
import Verif.Proofs.Draws
import Verif.Proofs.DrawsFill
import Verif.Props.Draws
import Verif.Model.Watched
import Verif.Spec.Watched
import Verif.Proofs.Watched
import Verif.Proofs.WatchedJam
import Verif.Props.Watched
import Verif.Model.Reload
import Verif.Spec.Reload
import Verif.Proofs.Reload
import Verif.Props.Reload
import Verif.Model.Monitored
import Verif.Spec.Monitored
import Verif.Proofs.Monitored
import Verif.Proofs.MonitoredExec
import Verif.Props.Monitored
import Verif.Model.Managed
import Verif.Spec.Managed
import Verif.Proofs.Managed
import Verif.Props.Managed
import Verif.Spec.Fair
import Verif.Proofs.Fair
import Verif.Proofs.FairRun
import Verif.Proofs.FairMain
import Verif.Spec.FairMonitored
import Verif.Proofs.FairMonitored
import Verif.Props.Fair
import Verif.Spec.FairManaged
import Verif.Proofs.FairManaged
import Verif.Props.FairManaged
import Verif.Spec.Overtaken
import Verif.Props.Overtaken

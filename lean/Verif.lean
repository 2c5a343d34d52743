import Verif.Props.Tokens
import Verif.Props.Path
import Verif.Props.Lists
import Verif.Props.Names
import Verif.Props.Layer
import Verif.Props.NodeData
import Verif.Props.LayerData
import Verif.Props.Version
import Verif.Props.Legacy
import Verif.Props.Dirty
import Verif.Props.Comp
import Verif.Props.Children
import Verif.Props.ChildCache
import Verif.Props.Exec
import Verif.Props.Times
import Verif.Props.Runtime
import Verif.Props.Remote
import Verif.Props.Stage
import Verif.Props.FilePaths
import Verif.Props.Resolve
import Verif.Props.Edit
import Verif.Props.EditOrder
import Verif.Props.Inherit
import Verif.Props.InheritLayers
import Verif.Props.Proxies
import Verif.Props.ProxiesPlain
import Verif.Props.ProxiesOrder
import Verif.Props.Attrs
import Verif.Props.SubLayers
import Verif.Props.ChildOrder
import Verif.Props.Targeted
import Verif.Props.Code
import Verif.Props.Opinions
import Verif.Props.Duplicate
import Verif.Props.Sources
import Verif.Props.Fallbacks
import Verif.Props.Increment
import Verif.Props.IncrementSettings
import Verif.Props.Retract
import Verif.Props.RetractSettings
import Verif.Props.Cache
import Verif.Model.Infer
import Verif.Lemmas.Infer
import Verif.Props.Infer
import Verif.Model.InstancePath
import Verif.Spec.InstancePath
import Verif.Props.InstancePath
import Verif.Props.Flow
import Verif.Props.Start
import Verif.Props.Disk
import Verif.Props.Session
import Verif.Props.Rpc
import Verif.Props.Contexts
import Verif.Props.Logging
import Verif.Props.Reinstance
import Verif.Props.Nested
import Verif.Props.InheritOrder
import Verif.Props.Reopen
import Verif.Props.Diverge
import Verif.Props.Socket
import Verif.Props.Plugins
import Verif.Props.EditBack
import Verif.Props.NamespaceMerge
import Verif.Props.Ancestors
import Verif.Props.Convert
import Verif.Props.ConvertOld
import Verif.Props.ExecSame
import Verif.Props.ExecReopen
import Verif.Props.Overrides
import Verif.Props.FlowReopen
import Verif.Props.Setup
import Verif.Props.Live
import Verif.Props.Build
import Verif.Props.BuildLayers
import Verif.Props.BuildReopen
import Verif.Props.AttrSource
import Verif.Props.Revalue
import Verif.Props.ListsOrder
import Verif.Props.BuildExec
import Verif.Props.BuildFlow
import Verif.Props.LiveChain
import Verif.Props.Arcs
import Verif.Props.Targets
import Verif.Props.AddTree
import Verif.Props.PreRelease
import Verif.Props.Commands
import Verif.Props.Labels
import Verif.Props.JsonText
import Verif.Props.JsonGrammar
import Verif.Props.Doubled
import Verif.Model.OneShot
import Verif.Props.OneShot
import Verif.Model.Quotes
import Verif.Props.Quotes
import Verif.Props.Register
import Verif.Model.Stash
import Verif.Props.Stash

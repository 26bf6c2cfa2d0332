import Verif.Assets.Build
import Verif.Assets.Hash
import Verif.Assets.New
import Verif.Assets.Program
import Verif.Assets.Props
import Verif.Async.Callbacks
import Verif.Async.EventEmitter
import Verif.Async.Executor
import Verif.Async.FutureBox
import Verif.Bind.Model
import Verif.Bind.Props
import Verif.Cells.Model
import Verif.Cells.Proof
import Verif.Cells.Props
import Verif.Codec.Arguments
import Verif.Codec.Lemmas
import Verif.Codec.Model
import Verif.Codec.Props
import Verif.Codec.Spec
import Verif.Codec.Total
import Verif.Codec.Ts
import Verif.Codec.TsLemmas
import Verif.Codec.TsSpec
import Verif.Codec.TsTotal
import Verif.Css.Chars
import Verif.Css.Macro
import Verif.Css.MacroParse
import Verif.Css.MacroProof
import Verif.Css.MacroProps
import Verif.Css.MacroRules
import Verif.Css.MacroSpec
import Verif.Css.Manager
import Verif.Css.Split
import Verif.Css.Transform
import Verif.Dom.Batch
import Verif.Dom.BrowserInv
import Verif.Dom.Children
import Verif.Dom.Command
import Verif.Dom.Inspect
import Verif.Dom.OrderedMapProps
import Verif.Dom.Reentrant
import Verif.Dom.ServerProps
import Verif.Driver.ClassMerge
import Verif.Driver.Gate
import Verif.Driver.Suspense
import Verif.Fetch.LazyCache
import Verif.Fetch.Resource
import Verif.Host.Access
import Verif.Host.Cookies
import Verif.Host.CookiesProof
import Verif.Host.Events
import Verif.Host.EventsProof
import Verif.Host.Fetch
import Verif.Host.Fields
import Verif.Host.Links
import Verif.Host.Logging
import Verif.Host.Options
import Verif.Host.Queries
import Verif.Host.Requests
import Verif.Host.RequestsProof
import Verif.Host.RequestsProps
import Verif.Host.Router
import Verif.Host.Start
import Verif.Host.Timers
import Verif.Host.TimersProof
import Verif.Host.Websocket
import Verif.Host.WebsocketRef
import Verif.Host.WindowMacro
import Verif.Json.Commands
import Verif.Json.Dates
import Verif.Json.Equality
import Verif.Json.Errors
import Verif.Json.F64
import Verif.Json.Typed
import Verif.Json.TypedProps
import Verif.Reactive.AutoMap
import Verif.Reactive.Check
import Verif.Reactive.ClientInv
import Verif.Reactive.Conditions
import Verif.Reactive.Derived
import Verif.Reactive.Exec
import Verif.Reactive.Frames
import Verif.Reactive.Graph
import Verif.Reactive.GraphLemmas
import Verif.Reactive.GraphProps
import Verif.Reactive.Handles
import Verif.Reactive.Ids
import Verif.Reactive.Inv
import Verif.Reactive.InvSteps
import Verif.Reactive.Live
import Verif.Reactive.LogInv
import Verif.Reactive.LogSpec
import Verif.Reactive.LogSteps
import Verif.Reactive.Machine
import Verif.Reactive.MachineProps
import Verif.Reactive.OneRead
import Verif.Reactive.Owned
import Verif.Reactive.Panics
import Verif.Reactive.RefreshProps
import Verif.Reactive.Running
import Verif.Reactive.SetProps
import Verif.Reactive.Spec
import Verif.Reactive.Static
import Verif.Reactive.StaticStar
import Verif.Reactive.StaticSteps
import Verif.Reactive.Steps
import Verif.Reactive.Tx
import Verif.Reactive.TxProps
import Verif.Reactive.Work
import Verif.Reactive.WorkProps
import Verif.Render.List
import Verif.Render.Moves
import Verif.Serve.Model
import Verif.Serve.Props
import Verif.Ssr.Cli
import Verif.Ssr.Dispatch
import Verif.Ssr.Html
import Verif.Ssr.Loop
import Verif.Ssr.Memory
import Verif.Ssr.Page
import Verif.Ssr.Whole
import Verif.Unsafe.Memory
import Verif.Unsafe.Tasks
import Verif.View.Build
import Verif.View.Component
import Verif.View.Content
import Verif.View.Given
import Verif.View.Inst
import Verif.View.Leak
import Verif.View.Listen
import Verif.View.ListenProof
import Verif.View.ListenProps
import Verif.View.ListenSome
import Verif.View.Loose
import Verif.View.Macro
import Verif.View.MacroProof
import Verif.View.MacroProps
import Verif.View.MacroSpec
import Verif.View.Marker
import Verif.View.Model
import Verif.View.Page
import Verif.View.Props
import Verif.View.Read
import Verif.View.Renew
import Verif.View.Run
import Verif.View.Sent
import Verif.View.Served
import Verif.View.SomePage
import Verif.View.Spec
import Verif.View.Style
import Verif.View.StyledPage
import Verif.View.Takeover
import Verif.View.Untouched
import Verif.View.Update
import Verif.Watch.Model
import Verif.Watch.Proof
import Verif.Watch.Props
import Verif.Watch.Spec
import Verif.Whole.Example
import Verif.Whole.Facts
import Verif.Whole.Fill
import Verif.Whole.Model
import Verif.Whole.Open
import Verif.Whole.Proof
import Verif.Whole.Props
import Verif.Whole.Uniq
import Verif.Audit

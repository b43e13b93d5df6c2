import Verif.Merge.Props
import Verif.Rewrites.Props
import Verif.Auth.Props
import Verif.Headers.Props
import Verif.InFlight.Props
import Verif.Limits.Props
import Verif.LongLived.Props
import Verif.Subs.Props
import Verif.Cors.Props
import Verif.Csrf.Props
import Verif.Json.EscapeProps
import Verif.Json.Grammar
import Verif.Projection.CondProps
import Verif.Projection.Props
import Verif.Core.Feed
import Verif.Entities.Examples
import Verif.Entities.HashProps
import Verif.Keys.Props
import Verif.Overrides.Props
import Verif.Variables.Props
import Verif.Masking.Props
import Verif.Jwt.Props
import Verif.Plan.Props
import Verif.Persisted.Props
import Verif.Persisted.Reload
import Verif.Gate.Props
import Verif.Gate.Body
import Verif.Introspection.Props
import Verif.Normalize.Total
import Verif.Demand.Props
import Verif.Best.Props
import Verif.Minify.Props
import Verif.Builder.Props
import Verif.Walker.Props
import Verif.Fetch.Props
import Verif.Stream.Props
import Verif.Callback.Props
import Verif.Valid.Props
import Verif.Valid.TypeProps
import Verif.Valid.OverlapProps
import Verif.Text.Props
import Verif.Text.MinifyProps
import Verif.Client.Props
import Verif.Client.TableProps
import Verif.Socket.Ends
import Verif.Socket.Headers
import Verif.Pool.Props
import Verif.Pool.Outcome
import Verif.Pool.OwnerEnds
import Verif.Pool.ClientProps
import Verif.Client.ResolveRefuted
import Verif.Client.ResolveTotal
import Verif.Client.ResolveRoot
import Verif.Usage.AgentProps
import Verif.Usage.ReportProps
import Verif.Usage.NormalCases
import Verif.Usage.CoordsCases
import Verif.Usage.Processor
import Verif.Reload.Cases
import Verif.Reload.CacheProps
import Verif.Coproc.Cases
import Verif.Extensions.Props
import Verif.Traces.Props
import Verif.Mismatch.Props
import Verif.Fold.Props
import Verif.Mismatch.Noted
import Verif.Fold.Rounds
import Verif.Breaker.Props
import Verif.Env.Props
import Verif.Target.Props
import Verif.Target.Timeout

import Verif.Event.Theorems
import Verif.Tags.Theorems
import Verif.Filter.Theorems
import Verif.Helpers.Theorems
import Verif.HLL.Theorems
import Verif.HLL.Count
import Verif.Negentropy.Theorems
import Verif.Negentropy.Sync
import Verif.Negentropy.Hostile
import Verif.Negentropy.Limits
import Verif.Nip19.Theorems
import Verif.Nip19.Wellformed
import Verif.Misc.Pointers
import Verif.Misc.Threads
import Verif.Misc.Pow
import Verif.Misc.Auth
import Verif.Nip44.Theorems
import Verif.Nip04.Theorems
import Verif.Nip49.Theorems
import Verif.Relay.Close
import Verif.Relay.Publish
import Verif.Pool.SubMany
import Verif.Pool.Ensure
import Verif.Pool.PublishMany
import Verif.Pool.Count
import Verif.Pool.Paginator
import Verif.Sdk.Store
import Verif.Sdk.Lists
import Verif.Sdk.Dataloader
import Verif.Sdk.Wot
import Verif.Sdk.Hints
import Verif.Sdk.Score
import Verif.Sdk.SqlRank
import Verif.Nip60.Wallet
import Verif.Nip60.Load
import Verif.Nip60.Race
import Verif.Nip60.Nutzap
import Verif.Nips.Codecs
import Verif.Nips.Bunker
import Verif.Nips.Signer
import Verif.Nips.Keyer
import Verif.Nips.Group
import Verif.Nips.GroupPages
import Verif.Nips.Blocks
import Verif.Json.Text
import Verif.Json.Lexer
import Verif.Json.Event
import Verif.Json.Filter
import Verif.Json.Gjson
import Verif.Json.Envelopes
import Verif.Json.Neg
import Verif.Json.Preparse
import Verif.Nips.Client
import Verif.Sdk.Input
import Verif.Sdk.Specific
import Verif.Sdk.Outbox
import Verif.Sdk.Feed
import Verif.Sdk.Profile
import Verif.Sdk.Tracker
import Verif.Nips.Nip05
import Verif.Helpers.Url
import Verif.Nips.Nip86
import Verif.Nips.Nip70
import Verif.Nips.Nip17
import Verif.Sdk.HintStores
import Verif.Sdk.KVDisk
import Verif.Relay.Conn
import Verif.Relay.ConnLife
import Verif.Nip60.Invoice
import Verif.Nip60.Pay
import Verif.Nip60.Publish
import Verif.Nip60.Relays
import Verif.Json.SonicFacts
import Verif.Json.SonicMemory
import Verif.Relay.Query
import Verif.Relay.Count
import Verif.Misc.MultiStore
import Verif.Nip60.Verify
import Verif.Nips.Live
import Verif.Sdk.LiveFeed
import Verif.Sdk.WotLoad
import Verif.Nip60.Settings
import Verif.Nips.Mentions
import Verif.Sdk.Batch
import Verif.Sdk.Keys
import Verif.Sdk.System
import Verif.Nips.KeyMaking
import Verif.Nips.Media
import Verif.Event.Libsecp
import Verif.Nips.Names
import Verif.Negentropy.Exact
import Verif.Relay.Reader
import Verif.Relay.EndToEnd
import Verif.Relay.AuthOver
import Verif.Pool.Batched
import Verif.Sdk.Search
import Verif.Nips.Repo
import Verif.Negentropy.IdsOnly
import Verif.Curve.Whole
import Verif.Curve.Seed
import Verif.Curve.Ecash
import Verif.Curve.Witness
import Verif.Curve.Remote
import Verif.Instances
import Verif.Helpers.HttpUrl
import Verif.Negentropy.Stores
import Verif.Nip60.MintAnswers
import Verif.Sdk.SeenOn
import Verif.Relay.Skip
import Verif.Nip60.Locks
import Verif.Nip60.During
import Verif.Helpers.SubIds
import Verif.Pool.Live
import Verif.Nips.CalRead
import Verif.Nips.FileRead
import Verif.Nips.RefPointers
import Verif.Sdk.ProfileKind
import Verif.Curve.ZeroKey
import Verif.Negentropy.AfterEnd

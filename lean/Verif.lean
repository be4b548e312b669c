import Verif.Util.AMap
import Verif.Util.Sort
import Verif.TreeMath.Model
import Verif.TreeMath.Lemmas
import Verif.TreeMath.Props
import Verif.Core.Access
import Verif.Core.CaMap
import Verif.Core.Transact
import Verif.Core.Listener
import Verif.Core.RevocationStore
import Verif.Core.Props
import Verif.Crypto.Seal
import Verif.Crypto.Digest
import Verif.Crypto.Props
import Verif.BeeKem.Keys
import Verif.BeeKem.Tree
import Verif.BeeKem.Shape
import Verif.BeeKem.View
import Verif.BeeKem.Encrypt
import Verif.BeeKem.EncLoop
import Verif.BeeKem.Inv
import Verif.BeeKem.Apply
import Verif.BeeKem.Decrypt
import Verif.BeeKem.Spec
import Verif.BeeKem.Secrecy
import Verif.BeeKem.Struct
import Verif.BeeKem.Props
import Verif.BeeKem.Fit
import Verif.BeeKem.Truthful
import Verif.BeeKem.Keyed
import Verif.BeeKem.FixUp
import Verif.Cgka.Topo
import Verif.Cgka.Graph
import Verif.Cgka.TopoLemmas
import Verif.Cgka.ScanLemmas
import Verif.Cgka.RoundLemmas
import Verif.Cgka.GraphInv
import Verif.Cgka.Model
import Verif.Cgka.Spec
import Verif.Cgka.StepInv
import Verif.Cgka.Append
import Verif.Cgka.Settle
import Verif.Cgka.Converge
import Verif.Cgka.FitInv
import Verif.Cgka.Order
import Verif.Cgka.Digest
import Verif.Cgka.ContentKey
import Verif.Cgka.Sample
import Verif.Cgka.ForkSample
import Verif.Cgka.Props
import Verif.Cgka.Batch
import Verif.Cgka.BatchProps
import Verif.Cgka.Rederive
import Verif.Cgka.LaterProps
import Verif.Cgka.TrustSpec
import Verif.Cgka.TrustLemmas
import Verif.Cgka.CalmLemmas
import Verif.Cgka.LinearLemmas
import Verif.Cgka.TrustSample
import Verif.Cgka.DeliveryProps
import Verif.Cgka.SecrecySpec
import Verif.Cgka.OriginLemmas
import Verif.Cgka.SecrecyLemmas
import Verif.Cgka.CutSample
import Verif.Cgka.SecrecyProps
import Verif.Cgka.MembersProps
import Verif.Group.Op
import Verif.Group.Topsort
import Verif.Group.Sort
import Verif.Group.Model
import Verif.Group.Spec
import Verif.Group.TopsortLemmas
import Verif.Group.OrderLemmas
import Verif.Group.CollectLemmas
import Verif.Group.HistoryLemmas
import Verif.Group.Determined
import Verif.Group.ReplayLemmas
import Verif.Group.ReplayInv
import Verif.Group.ReplayFacts
import Verif.Group.HeadsLemmas
import Verif.Group.HoldsLemmas
import Verif.Group.ReachLemmas
import Verif.Group.TransLemmas
import Verif.Group.FlatLemmas
import Verif.Group.WalkLemmas
import Verif.Group.GroupFacts
import Verif.Group.RevokeLemmas
import Verif.Group.Down
import Verif.Group.DownLemmas
import Verif.Group.LockLemmas
import Verif.Group.Sample
import Verif.Group.Props
import Verif.Prekey.Model
import Verif.Prekey.Spec
import Verif.Prekey.Lemmas
import Verif.Prekey.Registry
import Verif.Prekey.Sample
import Verif.Prekey.Props
import Verif.Cipher.Model
import Verif.Cipher.Spec
import Verif.Cipher.StoreLemmas
import Verif.Cipher.CausalLemmas
import Verif.Cipher.Props
import Verif.Keyhive.Model
import Verif.Keyhive.Local
import Verif.Keyhive.Content
import Verif.Keyhive.Archive
import Verif.Keyhive.Spec
import Verif.Keyhive.StoreLemmas
import Verif.Keyhive.LocalLemmas
import Verif.Keyhive.StockLemmas
import Verif.Keyhive.IngestLemmas
import Verif.Keyhive.FadeLemmas
import Verif.Keyhive.Sample
import Verif.Keyhive.Props
import Verif.Keyhive.GroupsLemmas
import Verif.Keyhive.TreeLemmas
import Verif.Keyhive.BridgeLemmas
import Verif.Keyhive.LocalSample
import Verif.Keyhive.KeyTreeProps
import Verif.Keyhive.Query
import Verif.Keyhive.QueryLemmas
import Verif.Keyhive.BulkLemmas
import Verif.Keyhive.QuerySample
import Verif.Keyhive.QueryProps
import Verif.Keyhive.ArchiveLemmas
import Verif.Keyhive.AlikeLemmas
import Verif.Keyhive.TakeInLemmas
import Verif.Keyhive.ArchiveSample
import Verif.Keyhive.ArchiveProps
import Verif.Group.Recast
import Verif.Keyhive.AgreeSpec
import Verif.Keyhive.AgreeLemmas
import Verif.Keyhive.SettleLemmas
import Verif.Keyhive.AgreeProps
import Verif.Cgka.OwnKeys
import Verif.Keyhive.KeptSpec
import Verif.Keyhive.AdvanceLemmas
import Verif.Keyhive.KeptLemmas
import Verif.Keyhive.ToldLemmas
import Verif.Keyhive.KeptSample
import Verif.Keyhive.KeptProps
import Verif.Keyhive.RoleLemmas
import Verif.Keyhive.RoleProps
import Verif.TreeMath.Outside
import Verif.BeeKem.Packed
import Verif.Cgka.HangSample
import Verif.Cgka.ReplayProps
import Verif.Cgka.MakerLemmas
import Verif.Cgka.CutLemmas
import Verif.Cgka.FlatLemmas
import Verif.Cgka.SerialLemmas
import Verif.Cgka.NearLemmas
import Verif.Cgka.CalmCalls
import Verif.Cgka.SerialSample
import Verif.Cgka.ReplaySpec
import Verif.Keyhive.HandedSpec
import Verif.Keyhive.HandedLemmas
import Verif.Keyhive.HandedProps
import Verif.Keyhive.NewDocLemmas
import Verif.Keyhive.SentLemmas
import Verif.BeeKem.Boxes
import Verif.BeeKem.NetSpec
import Verif.BeeKem.Net
import Verif.BeeKem.NetProps
import Verif.Cgka.GainSpec
import Verif.Cgka.GainLemmas
import Verif.Cgka.SealedLemmas
import Verif.Cgka.GainProps
import Verif.Cgka.CutOffSpec
import Verif.Cgka.CutOffLemmas
import Verif.Cgka.CutOffProps
import Verif.Cgka.TogetherSpec
import Verif.Cgka.TogetherLemmas
import Verif.Cgka.TogetherProps
import Verif.Keyhive.HeadsSpec
import Verif.Keyhive.Api
import Verif.Keyhive.HeadsLemmas
import Verif.Keyhive.HeadsProps
import Verif.Keyhive.AnswerSpec
import Verif.Keyhive.AlikeCalls
import Verif.Keyhive.Transact
import Verif.Keyhive.TransactSpec
import Verif.Keyhive.TransactLemmas
import Verif.Keyhive.TransactKeys
import Verif.Keyhive.TransactProps
import Verif.Cipher.FailingLemmas
import Verif.Group.RefuseLemmas
import Verif.Keyhive.Stats
import Verif.Keyhive.StatsSpec
import Verif.Keyhive.StatsLemmas
import Verif.Keyhive.KeyedLemmas
import Verif.Keyhive.StatsProps
import Verif.Keyhive.ReadSpec
import Verif.Keyhive.ReadLemmas
import Verif.Keyhive.ReadProps
import Verif.Prekey.SampleIndex
import Verif.Keyhive.Tables
import Verif.Keyhive.TablesSpec
import Verif.Keyhive.TablesLemmas
import Verif.Keyhive.TablesProps
import Verif.Keyhive.Access
import Verif.Keyhive.AccessLemmas
import Verif.Keyhive.AccessProps
import Verif.Keyhive.Secrets
import Verif.Keyhive.SecretsLemmas
import Verif.Keyhive.SecretsProps
import Verif.Keyhive.Register
import Verif.Keyhive.RegisterLemmas
import Verif.Keyhive.RegisterProps
import Verif.Cipher.Web
import Verif.Cipher.WebProps
import Verif.Keyhive.Bytes
import Verif.Keyhive.BytesProps
import Verif.Crypto.Signed
import Verif.Crypto.SignedProps
import Verif.Group.FoundLemmas
import Verif.Keyhive.Coparents
import Verif.Keyhive.CoparentsProps
import Verif.Keyhive.Debug
import Verif.Keyhive.DebugProps
import Verif.Crypto.Wire
import Verif.Crypto.WireLemmas
import Verif.Crypto.WireSpec
import Verif.Crypto.WireProps
import Verif.Cgka.PublicLemmas
import Verif.Cgka.PublicProps
import Verif.Keyhive.PublicProps
import Verif.Keyhive.FleetSpec
import Verif.Keyhive.FleetLemmas
import Verif.Keyhive.FleetProps
import Verif.Keyhive.HeldSpec
import Verif.Keyhive.HeldLemmas
import Verif.Keyhive.HeldProps
import Verif.Keyhive.ReportProps
import Verif.Cgka.PlaceLemmas
import Verif.Keyhive.PlaceSpec
import Verif.Keyhive.PlaceLemmas
import Verif.Keyhive.PlaceProps
import Verif.Keyhive.WriterProps
import Verif.Keyhive.RefuseProps
import Verif.Prekey.Card
import Verif.Prekey.CardSpec
import Verif.Prekey.CardProps
import Verif.Prekey.OrderProps
import Verif.Cgka.Errors
import Verif.Keyhive.WaitSpec
import Verif.Keyhive.WaitProps
import Verif.Keyhive.TakeProps
import Verif.Keyhive.ShutProps
import Verif.Keyhive.JoinProps
import Verif.Keyhive.SpreadLemmas
import Verif.Keyhive.SpreadProps
import Verif.Keyhive.LostLemmas
import Verif.Keyhive.LostProps
import Verif.Keyhive.GrantProps
import Verif.Keyhive.KeyHash
import Verif.Keyhive.KeyHashSpec
import Verif.Keyhive.KeyHashProps
import Verif.Keyhive.RevokeSpec
import Verif.Keyhive.RevokeProps
import Verif.Group.CountProps
import Verif.Cgka.AbleLemmas
import Verif.Keyhive.AbleProps
import Verif.Keyhive.CascadeProps
import Verif.Keyhive.SyncLemmas
import Verif.Keyhive.MixedLemmas
import Verif.Keyhive.SyncProps
import Verif.Keyhive.Asked
import Verif.Keyhive.AskedProps
import Verif.Cgka.Many
import Verif.Cgka.ManyProps
import Verif.Keyhive.Keyed
import Verif.Keyhive.KeyedProps
import Verif.Keyhive.FailedSpec
import Verif.Keyhive.FailedProps
import Verif.Keyhive.AgainSpec
import Verif.Keyhive.AgainProps
import Verif.Keyhive.EditorProps
import Verif.Group.CycleProps
import Verif.Group.ReaddProps
import Verif.Group.PassOnProps
import Verif.Group.RankProps
import Verif.Keyhive.Overlap
import Verif.Keyhive.OverlapProps
import Verif.Group.ForeignProps
import Verif.Keyhive.ForeignProps
import Verif.Keyhive.Save
import Verif.Keyhive.SaveProps
import Verif.Keyhive.Race
import Verif.Keyhive.RaceProps
import Verif.Prekey.GivenUp
import Verif.Prekey.GivenUpProps
import Verif.Keyhive.GivenUp
import Verif.Keyhive.GivenUpProps
import Verif.Keyhive.GivenAddProps
import Verif.Keyhive.StopProps
import Verif.Keyhive.LocksProps

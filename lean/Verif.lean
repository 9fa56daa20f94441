import Verif.AcoGate
import Verif.AcoGateProps
import Verif.AcoIo
import Verif.AcoIoProps
import Verif.Alpn
import Verif.AlpnProps
import Verif.Amqp
import Verif.AmqpProps
import Verif.Arena
import Verif.ArenaConc
import Verif.ArenaConcProps
import Verif.ArenaProps
import Verif.Asn1Time
import Verif.Asn1TimeProps
import Verif.B32
import Verif.B32Props
import Verif.B64
import Verif.B64Props
import Verif.Basic
import Verif.Btrie
import Verif.BtrieProps
import Verif.CacheHeap
import Verif.CacheProps
import Verif.Capa
import Verif.CapaProps
import Verif.Cht
import Verif.ChtProps
import Verif.Clock
import Verif.ClockProps
import Verif.Cluster
import Verif.ClusterOwn
import Verif.ClusterOwnProps
import Verif.ClusterProps
import Verif.ClusterViewProps
import Verif.ConApply
import Verif.ConApplyProps
import Verif.ConCmd
import Verif.ConCmdProps
import Verif.ConOut
import Verif.ConOutProps
import Verif.ConTab
import Verif.ConTabProps
import Verif.Conc
import Verif.ConfEnv
import Verif.ConfEnvProps
import Verif.ConfFile
import Verif.ConfFileProps
import Verif.ConfIncl
import Verif.ConfInclProps
import Verif.ConfLock
import Verif.ConfLockProps
import Verif.ConfNum
import Verif.ConfNumProps
import Verif.ConfStore
import Verif.ConfStoreProps
import Verif.ConfTree
import Verif.ConfTreeProps
import Verif.Confstr
import Verif.ConfstrProps
import Verif.Consul
import Verif.ConsulProps
import Verif.Cookie
import Verif.CookieProps
import Verif.CurlEv
import Verif.CurlEvProps
import Verif.CurlHelp
import Verif.CurlHelpProps
import Verif.Dso
import Verif.DsoProps
import Verif.DynBuffer
import Verif.DynBufferProps
import Verif.EvFd
import Verif.EvFdIntr
import Verif.EvFdInv
import Verif.EvFdKern
import Verif.EvFdOwn
import Verif.EvFdOwnProps
import Verif.EvFdProps
import Verif.EvRest
import Verif.EvRestProps
import Verif.FileServe
import Verif.FileServeProps
import Verif.Flow
import Verif.FlowProps
import Verif.Frrh
import Verif.FrrhProps
import Verif.Hash
import Verif.HashProps
import Verif.Heartbeat
import Verif.HeartbeatProps
import Verif.Hll
import Verif.HllProps
import Verif.Hooks
import Verif.HooksProps
import Verif.HttpConn
import Verif.HttpConnProps
import Verif.HttpHead
import Verif.HttpHeadProps
import Verif.HttpIn
import Verif.HttpInFlag
import Verif.HttpInProps
import Verif.HttpOut
import Verif.HttpOutProps
import Verif.HugeHash
import Verif.HugeHashProps
import Verif.Inflate
import Verif.Intern
import Verif.InternProps
import Verif.Jaeger
import Verif.JaegerProps
import Verif.JobDeps
import Verif.JobDepsProps
import Verif.Jobq
import Verif.JobqInv
import Verif.JobqProps
import Verif.Json
import Verif.JsonFile
import Verif.JsonFileProps
import Verif.JsonProps
import Verif.JsonStore
import Verif.JsonStoreProps
import Verif.JsonText
import Verif.JsonTextProps
import Verif.Lfu
import Verif.LfuProps
import Verif.Listen
import Verif.ListenProps
import Verif.Lockfile
import Verif.LockfileProps
import Verif.Log2
import Verif.Log2Props
import Verif.LogAsync
import Verif.LogAsyncProps
import Verif.LogFmt
import Verif.LogFmtProps
import Verif.LogGraph
import Verif.LogGraphProps
import Verif.LogRing
import Verif.LogRingProps
import Verif.Logic
import Verif.LogicParse
import Verif.LogicParseProps
import Verif.LogicProps
import Verif.Lru
import Verif.LruProps
import Verif.LuaBit
import Verif.LuaBitProps
import Verif.LuaPack
import Verif.LuaPackProps
import Verif.Mem
import Verif.Mkdir
import Verif.MkdirProps
import Verif.Observer
import Verif.ObserverProps
import Verif.Plock
import Verif.PlockProps
import Verif.Query
import Verif.QueryProps
import Verif.Rand
import Verif.RandProps
import Verif.RespHead
import Verif.RespHeadProps
import Verif.RestAcl
import Verif.RestAclProps
import Verif.RestRoute
import Verif.RestRouteProps
import Verif.Rev
import Verif.RevAcc
import Verif.RevAccProps
import Verif.RevInv
import Verif.RevNet
import Verif.RevProps
import Verif.Security
import Verif.SecurityProps
import Verif.Sem
import Verif.SemProps
import Verif.Skiplist
import Verif.SkiplistProps
import Verif.Slz
import Verif.SlzBits
import Verif.SlzCrc
import Verif.SlzEmit
import Verif.SlzLoop
import Verif.SlzProps
import Verif.SlzRoom
import Verif.SlzRoomProps
import Verif.SmallBuf
import Verif.SmallBufProps
import Verif.Smr
import Verif.SmrCore
import Verif.SmrEff
import Verif.SmrHist
import Verif.SmrInv
import Verif.SmrLive
import Verif.SmrProg
import Verif.SmrProps
import Verif.SmrRun
import Verif.SmrStep
import Verif.Sort
import Verif.SortProps
import Verif.Str
import Verif.StrProps
import Verif.TelOpt
import Verif.TelOptProps
import Verif.Telnet
import Verif.TelnetProps
import Verif.Timers
import Verif.TimersProps
import Verif.Tls
import Verif.TlsCtx
import Verif.TlsCtxProps
import Verif.TlsProps
import Verif.Token
import Verif.TokenProps
import Verif.Tzinfo
import Verif.TzinfoProps
import Verif.Url
import Verif.UrlProps
import Verif.Uuid
import Verif.UuidProps
import Verif.WatchConf
import Verif.WatchConfProps
import Verif.WatchHeart
import Verif.WatchHeartProps
import Verif.WatchMan
import Verif.WatchManProps
import Verif.WatchMon
import Verif.WatchMonProps
import Verif.WatchName
import Verif.WatchNameProps
import Verif.WsClient
import Verif.WsClientProps
import Verif.XmlBuf
import Verif.XmlBufProps
import Verif.XmlSave
import Verif.XmlSaveProps
import Verif.Zipkin
import Verif.ZipkinCtx
import Verif.ZipkinCtxProps
import Verif.ZipkinProps
import Verif.ZipkinSpan
import Verif.ZipkinSpanProps

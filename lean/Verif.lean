import Verif.Base
import Verif.CoreModel
import Verif.CoreMonad
import Verif.CoreInv
import Verif.CoreAdd
import Verif.CoreRemove
import Verif.CoreRepo
import Verif.CoreDelta
import Verif.CoreIndex
import Verif.CoreLoops
import Verif.CoreUnrefs
import Verif.CoreJobs
import Verif.CoreJobs2
import Verif.CoreJobs3
import Verif.CoreOps
import Verif.CoreTight
import Verif.Spec
import Verif.SpecIndex
import Verif.Demo
import Verif.CoreFrame
import Verif.PropsCore1
import Verif.PropsCore2
import Verif.Demo2
import Verif.PropsCore3
import Verif.PropsCrash
import Verif.PropsDelta
import Verif.Db
import Verif.PropsDb
import Verif.JobsModel
import Verif.JobsStore
import Verif.JobsSys
import Verif.JobsInv
import Verif.JobsOrder
import Verif.JobsParams
import Verif.PropsJobs
import Verif.Paths
import Verif.Transit
import Verif.PropsTransit
import Verif.Delta
import Verif.PropsDelta2
import Verif.DeltaJob
import Verif.PropsDeltaJob
import Verif.Escape
import Verif.PropsEscape
import Verif.IndexFiles
import Verif.PropsIndexFiles
import Verif.Lock
import Verif.PropsLock
import Verif.Layout
import Verif.PropsLayout
import Verif.Client
import Verif.PropsClient
import Verif.Server
import Verif.PropsServer
import Verif.Daemon
import Verif.PropsDaemon
import Verif.DbCore
import Verif.DbRefine
import Verif.Listing
import Verif.PropsListing
import Verif.PropsTime
import Verif.PropsDelta3
import Verif.PropsDelta4
import Verif.PropsSuccess
import Verif.Shutdown
import Verif.PropsShutdown
import Verif.Producer
import Verif.PropsProducer
import Verif.Eopkg
import Verif.PropsEopkg
import Verif.CoreRough
import Verif.CoreRough2
import Verif.PropsRough
import Verif.CoreSafe
import Verif.PropsSafe
import Verif.CoreWhole
import Verif.CoreWhole2
import Verif.CoreWhole3
import Verif.PropsWhole
import Verif.CoreStock
import Verif.CoreStock2
import Verif.PropsStock
import Verif.PropsDaemon2
import Verif.PropsOwn
import Verif.PropsStatus
import Verif.PropsLive
import Verif.PropsRebuild
import Verif.CoreRetry
import Verif.PropsRetry
import Verif.CoreOffer
import Verif.PropsOffer
import Verif.PropsDaemon3
import Verif.CoreRepeat
import Verif.PropsRepeat
import Verif.PropsLoose
import Verif.PropsAlias
import Verif.CoreSync
import Verif.PropsSync
import Verif.PropsLeak
import Verif.PropsHidden
import Verif.CoreProv
import Verif.PropsProv
import Verif.PropsDaemon4
import Verif.PropsRepos
import Verif.PropsDone
import Verif.CoreLax
import Verif.PropsLax
import Verif.Mutexes
import Verif.PropsMutex
import Verif.Handles
import Verif.PropsHandles
import Verif.Answers
import Verif.PropsAnswers
import Verif.XmlText
import Verif.PropsXmlText
import Verif.XmlDoc
import Verif.PropsXmlDoc
import Verif.XmlPackage
import Verif.PropsXmlPackage
import Verif.PropsXmlIndex
import Verif.Gob
import Verif.PropsGob
import Verif.GobCodec
import Verif.Json
import Verif.PropsJson
import Verif.ClientBytes
import Verif.ListingBytes
import Verif.PropsCommand
import Verif.Rfc3339
import Verif.PropsReport
import Verif.PropsDuration
import Verif.PropsScreen
import Verif.PropsWatch
import Verif.PropsRecords
import Verif.PropsTold
import Verif.PropsRefused

import Verif.Props.Bitset
import Verif.Props.BitsetHeap
import Verif.Props.Sha1
import Verif.Props.Messages
import Verif.Props.Readers
import Verif.Props.Catalogue
import Verif.Props.Catalogue2
import Verif.Props.CatSave
import Verif.Props.CatCrash
import Verif.Props.CatHostile
import Verif.Props.Clean
import Verif.Props.Cli
import Verif.Props.Receiver
import Verif.Props.Download
import Verif.Props.Sender
import Verif.Props.Transfer
import Verif.Props.Requests
import Verif.Props.Server
import Verif.Props.DownloadLoop
import Verif.Props.Listing
import Verif.Props.Fatal
import Verif.Props.StartDownload
import Verif.Props.Json
import Verif.Props.DownloadLock
import Verif.Model.Unlocked
import Verif.Lemmas.CatPoint
import Verif.Lemmas.Unlocked
import Verif.Props.Unlocked
import Verif.Lemmas.CatKeep
import Verif.Props.UserFiles
import Verif.Props.EndToEnd
import Verif.Model.RecvThread
import Verif.Props.RecvThread
import Verif.Props.Privacy
import Verif.Props.Failures
import Verif.Model.Locks
import Verif.Spec.Locks
import Verif.Props.Locks
import Verif.Spec.Paths
import Verif.Props.Paths
import Verif.Model.SenderMany
import Verif.Spec.Stream
import Verif.Props.SenderMany
import Verif.Lemmas.CatApart
import Verif.Lemmas.LongJson
import Verif.Props.OwnFiles
import Verif.Props.SamePath
import Verif.Props.ServeReadOnly
import Verif.Model.Text
import Verif.Props.Text
import Verif.Props.Starve
import Verif.Props.Genuine
import Verif.Model.Discovery
import Verif.Props.Discovery
import Verif.Model.GoClean
import Verif.Lemmas.GoClean
import Verif.Model.Main
import Verif.Spec.Dirs
import Verif.Props.Fresh
import Verif.Model.Startup
import Verif.Props.Startup
import Verif.Props.TwoDaemons
import Verif.Props.Home
import Verif.Props.Resume
import Verif.Props.Found
import Verif.Props.NoNetwork
import Verif.Model.Descriptors
import Verif.Props.Descriptors
import Verif.Props.Unshare
import Verif.Spec.JsonText
import Verif.Lemmas.JsonText
import Verif.Lemmas.JsonStore
import Verif.Lemmas.JsonWritten
import Verif.Props.Rewritten
import Verif.Props.Workers
import Verif.Props.Success
import Verif.Props.FullDisk
import Verif.Props.WindowMany
import Verif.Props.UploadPanic
import Verif.Props.Answers
import Verif.Props.Memory
import Verif.Props.Works
import Verif.Props.PowerLoss
import Verif.Lemmas.Steps
import Verif.Lemmas.StepsKill
import Verif.Props.OneByOne
import Verif.Model.Steps
import Verif.Model.Network
import Verif.Props.Network
import Verif.Props.Spread
import Verif.Lemmas.CatCalm
import Verif.Props.DiskErrors
import Verif.Model.Unreliable
import Verif.Props.Unreliable
import Verif.Model.LossyNet
import Verif.Props.LossyNet
import Verif.Props.LossySpread
import Verif.Props.GetAgain
import Verif.Props.IndexFile
import Verif.Model.Daemon
import Verif.Props.Daemon
import Verif.Props.Leaves
import Verif.Props.Cases
import Verif.Props.CutProgress
import Verif.Spec.Restart
import Verif.Props.DeathPoints
import Verif.Model.LiveShare
import Verif.Props.LiveShare
import Verif.Model.Linked
import Verif.Props.Linked
import Verif.Props.Away
import Verif.Props.ListCommand
import Verif.Model.Commands
import Verif.Props.Commands
import Verif.Model.CleanMany
import Verif.Props.CleanMany
import Verif.Model.LiveUpload
import Verif.Props.LiveUpload
import Verif.Props.Flood
import Verif.Props.Stops
import Verif.Props.Embed
import Verif.Props.Flags
import Verif.Props.Halts
import Verif.Model.Process
import Verif.Props.Screen
import Verif.Model.Rpc
import Verif.Props.Rpc
import Verif.Props.GetOnce
import Verif.Props.Owned
import Verif.Props.Halfway
import Verif.Props.Handled
import Verif.Props.Heals
import Verif.Props.Cut
import Verif.Lemmas.LaxJson
import Verif.Props.Refused
import Verif.Spec.ProgressText
import Verif.Lemmas.ProgressText
import Verif.Props.ProgressSays
import Verif.Props.Others

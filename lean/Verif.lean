import Verif.Common.Bytes
import Verif.Stream.MultiProps
import Verif.Stream.SmallProps
import Verif.Stream.ChunkProps
import Verif.Http.ParseProps
import Verif.Http.ReadProps
import Verif.Http.Redact
import Verif.Http.HonestProps
import Verif.Http.PinProps
import Verif.Http.LaneProps
import Verif.Http.LaneSafe
import Verif.Common.Path
import Verif.Fsutil.Chmod
import Verif.Fsutil.WrapErr
import Verif.Fsutil.HeadTail
import Verif.Fsutil.Utf8
import Verif.Fsutil.TempProps
import Verif.Fsutil.SafeProps
import Verif.Fsutil.SafePanic
import Verif.Fsutil.SafeConc
import Verif.Fsutil.SafeConcProps
import Verif.Fsutil.Sweep
import Verif.Fsutil.SweepProps
import Verif.Common.Prog
import Verif.Fsutil.PullProps
import Verif.Fsutil.PullHooks
import Verif.Fsutil.PushProps
import Verif.Fsutil.ResolveSame
import Verif.Fsutil.ResolveErrors
import Verif.Fsutil.ResolveComplete
import Verif.Fsutil.CopyProps
import Verif.Fsutil.CopyOver
import Verif.Fsutil.CopyPathModel
import Verif.Fsutil.CopyPathProps
import Verif.Fsutil.CopyPathOk
import Verif.Fsutil.CopyFollowModel
import Verif.Fsutil.CopyFollow
import Verif.Fsutil.CopyFollowSame
import Verif.Fsutil.CopyUser
import Verif.Tarfs.SparseRead
import Verif.Tarfs.NumericProps
import Verif.Tarfs.LinkProps
import Verif.Tarfs.ViewModel
import Verif.Tarfs.LinkTarget
import Verif.Tarfs.MapModel
import Verif.Tarfs.MapProps
import Verif.Tarfs.MapRead
import Verif.Tarfs.MapFind
import Verif.Tarfs.Sections
import Verif.Tarfs.DirHandle
import Verif.Tarfs.Archive
import Verif.Common.PathWalk
import Verif.Vroot.Flag
import Verif.Vroot.WrapProps
import Verif.Vroot.Prefix
import Verif.Vroot.Convert
import Verif.Vroot.WalkProps
import Verif.Vroot.WalkLoop
import Verif.Vroot.WalkFull
import Verif.Sftp.Sftp
import Verif.Sftp.Requests
import Verif.Sftp.Remove
import Verif.Sftp.Paging
import Verif.Sftp.Errors
import Verif.Sftp.Append
import Verif.Synth.Handle
import Verif.Synth.Append
import Verif.Synth.Ranged
import Verif.Synth.TreeAcyclic
import Verif.Synth.TreeProps
import Verif.Synth.TreeConf
import Verif.Synth.DirPage
import Verif.Synth.DirSeek
import Verif.Synth.Overwrite
import Verif.Synth.Fill
import Verif.Synth.Refused
import Verif.Synth.Effects
import Verif.Synth.Added
import Verif.Synth.Views
import Verif.Overlay.Store
import Verif.Overlay.Lock
import Verif.Overlay.SqlVfs
import Verif.Overlay.Dsn
import Verif.Overlay.SqlVfsProps
import Verif.Overlay.Construct
import Verif.Overlay.Handles
import Verif.Overlay.Names
import Verif.Overlay.Layers
import Verif.Overlay.LookupProps
import Verif.Overlay.Ops
import Verif.Overlay.Lower
import Verif.Overlay.View
import Verif.Overlay.Marks
import Verif.Overlay.RemoveProps
import Verif.Overlay.CopyProps
import Verif.Overlay.FreshProps
import Verif.Overlay.RenameProps
import Verif.Overlay.WriteProps
import Verif.Overlay.Reach
import Verif.Overlay.Paths
import Verif.Overlay.PathProps
import Verif.Overlay.PathCalls
import Verif.Overlay.SubRoot
import Verif.Overlay.PathFound
import Verif.Overlay.MarkNames
import Verif.Overlay.Answers
import Verif.Overlay.DirHandle
import Verif.Afero.Concurrent
import Verif.Afero.ConcurrentApart
import Verif.Afero.ConcurrentProps
import Verif.Afero.Model
import Verif.Afero.Lemmas
import Verif.Afero.FindProps
import Verif.Afero.Inv
import Verif.Afero.RemoveProps
import Verif.Afero.RenameProps
import Verif.Afero.OpenProps
import Verif.Afero.ViewProps
import Verif.Afero.MemFile
import Verif.Afero.DirHandle
import Verif.Afero.Closable
import Verif.Afero.Observable
import Verif.Afero.Views
import Verif.Afero.ValidPath
import Verif.Afero.CopyModel
import Verif.Afero.CopyProps
import Verif.Afero.IoFs
import Verif.Locks.Model
import Verif.Locks.Props
import Verif.Locks.Atomic
import Verif.Locks.Afero
import Verif.Testhelper.Lines
import Verif.Testhelper.Setup
import Verif.Vroot.Osfs
import Verif.Vroot.Flock
import Verif.Fsutil.BufPool
import Verif.Synth.BytesView
import Verif.Overlay.FilesProps
import Verif.Vroot.Funcs
import Verif.Fsutil.PullConc
import Verif.Synth.Meta
import Verif.Afero.Meta
import Verif.Vroot.SubWiden
import Verif.Synth.OpenGuard
import Verif.Common.Url
import Verif.Http.Request
import Verif.Stream.FileUrl
import Verif.Stream.FileClient
import Verif.Stream.ChunkConc
import Verif.Overlay.Attrs
import Verif.Stream.Upload
import Verif.Stream.Download
import Verif.Stream.Transfer
import Verif.Overlay.Staging
import Verif.Fsutil.PowerLoss
import Verif.Fsutil.PullPower
import Verif.Fsutil.PushPower
import Verif.Testhelper.Context
import Verif.Synth.AddPaths
import Verif.Overlay.SqlPower

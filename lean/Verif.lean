import Verif.Bits
import Verif.Bytes
import Verif.Cache.BlockReader
import Verif.Cache.Lru
import Verif.Cli.Command
import Verif.Cli.Control
import Verif.Cli.Depth
import Verif.Cli.IndexPaths
import Verif.Cli.InputFile
import Verif.Cli.MountPoint
import Verif.Cli.Options
import Verif.Cli.Parallelization
import Verif.Cli.Random
import Verif.Cli.Sources
import Verif.Cli.Suffix
import Verif.Cli.Unmount
import Verif.Compose.Adaptor
import Verif.Compose.Automount
import Verif.Compose.LayerXattrs
import Verif.Compose.Layers
import Verif.Compose.Lazy
import Verif.Compose.Prefix
import Verif.Compose.SingleFile
import Verif.Compose.Source
import Verif.Compose.SplitMount
import Verif.Compose.Statfs
import Verif.Compose.Subvolumes
import Verif.Compose.Union
import Verif.Compose.Unversioned
import Verif.Compose.Versioning
import Verif.Compress.SeekPoints
import Verif.Compress.Zstd
import Verif.Detect.Backends
import Verif.Detect.Extension
import Verif.Detect.Formats
import Verif.Detect.Frames
import Verif.Detect.Gzip
import Verif.Detect.Open
import Verif.Detect.Signatures
import Verif.Detect.Threads
import Verif.Dict
import Verif.Fat.Chain
import Verif.Fat.Dates
import Verif.Fat.Demo
import Verif.Fat.Format
import Verif.Fat.Header
import Verif.Fat.Image
import Verif.Fat.Mounted
import Verif.Fat.Names
import Verif.Fat.Source
import Verif.Fat.Table
import Verif.Fat.Tree
import Verif.FileSpec
import Verif.Formats.Ar
import Verif.Formats.Asar
import Verif.Formats.EmbeddedRows
import Verif.Formats.Ext4
import Verif.Formats.Folder
import Verif.Formats.Fsspec
import Verif.Formats.Git
import Verif.Formats.GitUrl
import Verif.Formats.Hashing
import Verif.Formats.Html
import Verif.Formats.HtmlPlaces
import Verif.Formats.IndexedFolder
import Verif.Formats.Libarchive
import Verif.Formats.LibarchiveRows
import Verif.Formats.Ogg
import Verif.Formats.Passwords
import Verif.Formats.Pdf
import Verif.Formats.Rar
import Verif.Formats.SevenZip
import Verif.Formats.SevenZipSource
import Verif.Formats.SharedFile
import Verif.Formats.Sqlar
import Verif.Formats.SquashFS
import Verif.Formats.SquashFSRows
import Verif.Formats.Url
import Verif.Formats.Zip
import Verif.Fuse.ArMount
import Verif.Fuse.AsarMount
import Verif.Fuse.FolderIndex
import Verif.Fuse.FolderMount
import Verif.Fuse.Handles
import Verif.Fuse.HtmlMount
import Verif.Fuse.IndexMount
import Verif.Fuse.LibMount
import Verif.Fuse.LibarchiveMount
import Verif.Fuse.MultiMount
import Verif.Fuse.ObjectMount
import Verif.Fuse.OggMount
import Verif.Fuse.OldVersions
import Verif.Fuse.OlderMembers
import Verif.Fuse.PdfMount
import Verif.Fuse.RarMount
import Verif.Fuse.SelfBind
import Verif.Fuse.Sessions
import Verif.Fuse.SevenZipMount
import Verif.Fuse.SqlarMount
import Verif.Fuse.SquashMount
import Verif.Fuse.Stat
import Verif.Fuse.TarFiles
import Verif.Fuse.TarLife
import Verif.Fuse.TarMount
import Verif.Fuse.TarNested
import Verif.Fuse.TarOver
import Verif.Fuse.TarTable
import Verif.Fuse.ThinMount
import Verif.Fuse.UnionMount
import Verif.Fuse.ZipMount
import Verif.Index.Build
import Verif.Index.Complete
import Verif.Index.Crash
import Verif.Index.Direct
import Verif.Index.Hashes
import Verif.Index.Load
import Verif.Index.Loaded
import Verif.Index.Normpath
import Verif.Index.Query
import Verif.Index.Recreate
import Verif.Index.Reindex
import Verif.Index.Reuse
import Verif.Index.Rows
import Verif.Index.Writable
import Verif.Index.Xattrs
import Verif.Names.FormatNumber
import Verif.Names.SplitFile
import Verif.Overlay.Commit
import Verif.Overlay.CommitTar
import Verif.Overlay.Controlled
import Verif.Overlay.Entries
import Verif.Overlay.History
import Verif.Overlay.Host
import Verif.Overlay.HostLemmas
import Verif.Overlay.Meta
import Verif.Overlay.Model
import Verif.Overlay.MoveFolder
import Verif.Overlay.OverTar
import Verif.Overlay.Paths
import Verif.Overlay.Refine
import Verif.Overlay.Witness
import Verif.Py
import Verif.PyLemmas
import Verif.PyNum
import Verif.PyStr
import Verif.Sort
import Verif.Stencil.Blobs
import Verif.Stencil.Concurrent
import Verif.Stencil.Joined
import Verif.Stencil.Lemmas
import Verif.Stencil.Model
import Verif.Stencil.Props
import Verif.Tar.Append
import Verif.Tar.Attributes
import Verif.Tar.Damage
import Verif.Tar.Header
import Verif.Tar.Incremental
import Verif.Tar.Index
import Verif.Tar.Offsets
import Verif.Tar.Scan
import Verif.Tar.Sparse
import Verif.Tar.Verify

# Formal model of ratarmount: design

Subject: the Python sources of ratarmount in `/repo`, read as text, never run.
Method: shallow Lean 4 models that mirror the Python functions branch by branch, with exceptions as values, and theorems over all
inputs, states and histories.

## Layout

* `lean/Verif/{Py,PyLemmas,PyStr,PyNum,FileSpec,Dict,Sort,Bits,Bytes}.lean`: the Python facts used everywhere (exceptions, slices,
  strings, numbers, dictionaries in insertion order, stable sorting, bit operations, little-endian numbers), and the specification
  of a file object.
* `lean/Verif/<Area>/*.lean`: one module per piece of the code. Each begins with the model. Every definition of the model cites the file
  and the lines it models and names its simplifications. Then follow a section `## specification`, lemmas, the theorems (named after
  the property, `C01_...`), and beside each theorem an `example` that meets its hypotheses.
* Areas: `Stencil` (file views), `Cache`, `Names` (split files), `Index` (SQLite index), `Tar`, `Compose` (union, versions,
  prefix, subvolumes, automount), `Overlay` (write overlay), `Fuse` (handles, sessions), `Detect` (formats and backends), `Compress`,
  `Fat`, `Formats` (archive formats, folders, git, hashes), `Cli`.
* `properties.jsonl`: the claims. `MANIFEST.json`: theorems and status per claim. `seeded/LOG.jsonl`: wrong programs the theorems were
  tested against, with the theorems that failed. A wrong
  program counts as caught when a proof no longer goes through; this is weaker than the statement being false, because a proof can also fail
  for its wording. Entries whose edit turned out to be outside the named definition or not to compile are marked with a note and were run again.

Conventions. Bytes are `UInt8`, or an arbitrary type when the code never looks at them. File contents are lists. Python integers are
`Int` or `Nat`. Strings are lists of characters. A Python exception is a value, and state changes made before it is raised are kept.

Where the code violates a claim, the claim is kept as a definition `Cxx_statement`, its negation is proved with a concrete witness
(`Cxx_..._violated`), and the strongest part that holds is named `..._partial`. A claim is `proved` if its whole statement in
`properties.jsonl` is a theorem, and `partial` otherwise.

## Trusted base

* Lean's kernel (version 4.33.0) and the axioms in the section "Axioms": at most `propext`, `Classical.choice` and `Quot.sound`. There
  are no axioms of our own, no `sorry`, no `native_decide` and no `bv_decide`.
* The reading of the Python code by hand. Nothing but the citation at each definition ties the model to the code.
* The statements: a theorem says what its Lean statement says. The English claim in `properties.jsonl` is our reading of it.

The following is outside of every model and appears as a parameter with arbitrary behaviour, or as the stated assumption.

* Python: no memory limit, no `KeyboardInterrupt`, no garbage collection effects (`__del__`). `str.isdigit`, `int`, case folding and
  regular expressions are modelled for ASCII. Text encodings are parameters. Sets are lists of which only the members matter.
* Files: a file object is its bytes and a position. A read returns as many bytes as there are unless a model says otherwise (short
  reads are modelled where the code loops because of them). Floating-point times and wall-clock time are plain values or parameters.
* Threads: Stencil/Concurrent and Compress/Zstd model arbitrary interleavings of atomic steps. Everything else is sequential. In
  particular races between FUSE threads are not modelled apart from these.
* SQLite: tables are lists of rows with the keys of create-index-tables.sql. `INSERT OR REPLACE`, `INSERT OR IGNORE`, `ORDER BY`,
  `GLOB` and the trigger are modelled as their documentation says. A crash loses whole statements (Index/Crash); torn pages and
  transactions that SQLite rolls back are not modelled.
* Host file system (Overlay/Host): a tree of inodes with POSIX rules for creating, renaming and removing. Permissions, quotas, symbolic
  links inside of paths, and other processes that change the overlay folder are not modelled.
* FUSE and the kernel (Overlay/Refine, Fuse/*): the kernel looks paths up before an operation and does not pass on operations that are
  illegal for what it saw. libfuse's hiding of removed files that are open, and mfusepy's default implementations, are not modelled. The
  prefix of ignored paths in the overlay is not modelled.
* GNU tar (Overlay/Commit): `--delete` and `--append` as documented. Hard-link members are not modelled.
* Libraries: tarfile's header codec is a parameter (Tar/Scan says what is assumed). Decompressors, libarchive, PySquashfsImage, pygit2,
  py7zr, pypdf, rarfile, hashlib and fsspec are parameters: their data structures are given, their code is not modelled. pyfatfs is part
  of the repository and is modelled in part.
* Format checks other than the ones cited are arbitrary functions of the file and its position.

## Properties: what is modelled, how it is proved, what came out

The note names the model and the kind of proof; the theorems are listed in `MANIFEST.json`.

| id | claim | modules | result | note |
|----|-------|---------|--------|------|
| C01 | Stenciled file reads are slices of the concatenated ranges | Stencil/Props | proved | Refinement of RawStenciledFile to an in-memory file for every list of ranges, history of read/seek/tell and disturbance of the underlying positions. |
| C02 | A rejected seek does not change the file position | Stencil/Props | partial, violated in part | The code violates the claim (C02_violated: a rejected seek leaves a negative position behind). Proved: the next absolute seek recovers. Missing: calls between the rejected seek and that absolute seek. |
| C03 | Lazily joined files read back the whole concatenation | Stencil/Joined | proved | RawJoinedFileFromFactory: any history, and reading to the end. |
| C04 | Concurrent readers of one shared file do not disturb each other | Stencil/Concurrent | proved | Interleaved micro-step model of locked readers: results equal sequential reads, no deadlock; the lock is needed. |
| C05 | Function-backed and zero files behave like plain byte strings | Stencil/Joined | proved | LambdaReaderFile, ZeroFile, SQLiteBlobFile refine an in-memory file. |
| C06 | Blob-stored files round-trip | Stencil/Blobs | proved | Writer and reader composed; the SQLite table is a list of rows. |
| C07 | No stored blob exceeds the configured blob size | Stencil/Blobs | partial, violated in part | The code violates the claim for writes larger than the blob size (C07_violated). Proved for writes up to the blob size. |
| C08 | The LRU cache stays within its capacity and evicts least recently used keys | Cache/Lru | partial, violated in part | The code violates the claim twice (C08_violated: failed look-ups leave stale keys and later inserts raise; C08_setdefault_violated: setdefault never evicts). Proved for all other histories. |
| C09 | The LRU cache never returns a stale value | Cache/Lru | proved | For every history, including those that raise. |
| C10 | Parallel block reads return the right bytes whatever is cached | Cache/BlockReader | proved | Refinement to an in-memory file for every block partition, worker pool readiness and prefetch count; parallel decoding is represented by its result. |
| C11 | read() without a size returns everything that is left | Cache/BlockReader | partial, violated in part | The code violates the claim (C11_violated: read() loses the last byte of the block and moves backwards). Proved at and after the end of the file. |
| C12 | Split-file numbering is a faithful positional numbering | Names/FormatNumber | proved | Every number, alphabet and padding. |
| C13 | Split-file detection joins exactly a gap-free sequence in order | Names/SplitFile | partial, violated in part | The code violates the claim about equal suffix lengths (C13_violated). Proved: gap-free, ordered, complete sequence, and termination. Missing: equal suffix lengths. |
| C14 | Path normalisation is canonical and idempotent | Index/Normpath | proved | Every string; posixpath.normpath is modelled on components. |
| C15 | Version numbers of one path enumerate its entries consistently | Index/Query | proved | For every table, path and version number; SQLite ordering is a sort by offsetheader. |
| C16 | Directory listings agree with lookups | Index/Query | proved | For every table. |
| C17 | Every indexed file is reachable from the root | Index/Build, Index/Reindex | partial, violated in part | The code violates the claim (C17_violated: a file /a stored after /a/b hides the folder). Proved: reachable when no ancestor is stored as a non-folder, the entry itself is always found, and every ancestor has a folder version. Missing: the newest version of an ancestor is a folder. |
| C18 | An interrupted index creation is never taken for a complete index | Index/Crash | partial, violated in part | The code violates the claim (C18_violated: stop between CREATE of files and filestmp leaves an accepted empty index). Proved for every stop after the schema is complete, for complete creation and for appending. Missing: stops inside the schema script. |
| C19 | Re-indexing the same entries does not change what is visible | Index/Reindex | partial, violated in part | The code violates the claim (C19_violated: a generated parent folder takes the offset of whichever child came first). Proved for rows whose ancestors are stored, and for replaced rows. |
| C20 | Extended attributes keep the last value written per file and key | Index/Xattrs | partial, violated in part | The code violates the claim (C20_violated: a generated parent folder shows the attributes of a child because it shares its offset). Proved for entries whose header offset is unique, plus isolation from other entries and the empty result for the root. |
| C21 | Hash computation can be interrupted and resumed | Index/Hashes | partial, violated in part | Resumption is proved for every sequence of stops. The code violates the claim about reading each file once (C21_violated: an unsupported algorithm makes every mount read the archive again). Proved for supported algorithms. |
| C22 | A rejected index is removed only when that is allowed | Index/Load | proved | All combinations of loading results, options and index locations. |
| C23 | A changed archive is treated as appended only in the safe case | Tar/Append | partial, violated in part | The code violates the claim (C23_violated: the append flag of a rejected candidate index stays set for the next candidate). Proved for a single candidate, and that some candidate was accepted as grown. |
| C24 | The resume offset of an appended archive is the end of the last file | Tar/Append | partial, violated in part | The code violates the claim if the last member is a nested TAR (C24_violated). Proved when the last row is a member of the outer archive. |
| C25 | Every TAR member is found at its place and reads back | Tar/Index, Tar/Scan | proved | Every archive that is a concatenation of members (with PAX/GNU helper headers) followed by zero blocks, at every nesting depth; header decoding is a parameter of the model. Global PAX headers are modelled as amending the next member only; GNU incremental name fixing is not modelled. |
| C26 | Sparse files expand to their logical content | Tar/Sparse | partial, violated in part | The code violates the claim: a sparse member without any hole cannot be opened (C26_violated). Proved: contents of every accepted map (C26_contents) and exactly which maps are accepted. Missing: maps without a hole. |
| C27 | Direct reads and reads through an opened file agree | Tar/Sparse | partial, violated in part | The code violates the claim (C27_violated: read() does not clip at the member end). Proved when the requested range lies inside the member, and that the in-member prefix always agrees. |
| C28 | TAR entry types map to the right kind of file | Tar/Index | partial, violated in part | The code violates the claim (C28_violated: block devices and hard links get no file type; stray type bits are or-ed in). Proved for the other type flags and modes without type bits; only symbolic links are reported as links. |
| C29 | Later sources win in a union mount and versions concatenate | Compose/Union | partial, violated in part | The code violates the claim (C29_violated: a folder of one source hides a file of the same name through the folder cache). Proved for every number of sources and every version number if no cached folder is a file elsewhere. Missing: such conflicts. |
| C30 | The union folder cache is invisible | Compose/Union | partial, violated in part | The code violates the claim (C30_violated). Proved for caches of any depth, aborted anywhere, if no cached folder is a file elsewhere. Missing: such conflicts. |
| C31 | Union listings are the union of names with the metadata lookups give | Compose/Union | partial, violated in part | The code violates the claim about metadata (C31_violated: the first dictionary listing wins over a later source). Proved: names exactly those of the sources, nothing listed exactly if no source has the folder; the metadata is what one of the sources lists for the name. Missing: names that several sources have. |
| C32 | Opening and reading leaves file metadata objects unchanged and reaches the right source | Compose/Layers | partial, violated in part | The code violates the claim for folders of sub-volume mounts (C32_violated) and for files below an auto-mount layer directly above a version layer above a plain source (C32_files_violated; the mount command builds the other order). Proved for all other stacks of any depth, for files, and in stacks without sub-volumes for arbitrary objects. read is written like open; extended attributes and listings are not included. |
| C33 | Combined file system statistics are safe bounds | Compose/Statfs | proved | Every list of per-source dictionaries; values are integers. |
| C34 | Every version of a file is reachable through the versions folder | Compose/Versioning | partial, violated in part | The code violates the claim (C34_violated: p.versions/0 and negative numbers are found although not listed). Proved: any number of version steps along a path, listing, canonical numbers, other paths. Missing: numbers up to 0. |
| C35 | Looking up anything that does not exist reports absence | Compose/Versioning | partial, violated in part | The code violates the claim (C35_violated: AssertionError). Proved if the parent folder is missing too. |
| C36 | Resolving hard links always terminates | Compose/Versioning | partial, violated in part | Proved: at most 129 lookups for every link graph, self references, chains of up to 128 links. Longer chains are cut off (C36_violated). |
| C37 | Removing a prefix shows exactly the sub-tree | Compose/Prefix | partial, violated in part | The code violates the claim (C37_violated: older versions below the prefix are not reachable, the version argument is dropped). Proved for every prefix and path: the newest version, version counts and listings below the prefix, folders above it, nothing beside it. |
| C38 | Sub-volume mounts form a tree that matches mount and unmount calls | Compose/Subvolumes | proved | Every sequence of mount and unmount calls, refinement of a list of mount points; mount paths are arbitrary strings, queried paths are canonical. |
| C39 | Files in nested sub-volumes can be opened | Compose/Subvolumes | partial, violated in part | The code violates the claim (C39_violated; C39_nested_fails: no file below a mount point deeper than the root can be opened). Proved for mount points in the root. |
| C40 | Auto-mounted archives serve the longest matching mount point | Compose/Automount | proved | Every set of mount points, canonical paths; C40_serves states where lookups and version counts come from. |
| C41 | The original archive stays reachable as an older version of its mount point | Compose/Automount | partial, violated in part | The code violates reachability for archives inside of mounted archives (C41_violated). Proved: periodicity for every path, the meaning of every version number of a mount point, reachability for archives of the root source. |
| C42 | A single-file mount exposes exactly one file with the given content | Compose/SingleFile | proved | For a given file object. Mount sources made from a function that opens the file are not modelled. |
| C43 | Deleted files stay hidden until they are created again | Overlay/History, Overlay/Witness | partial, violated in part | The code violates the claim (C43_violated: a folder rename that fails brings a removed file back). Proved for every history of calls that the kernel lets through, with the exceptions named in Works (renames and truncations that C45 and C47 exclude). |
| C44 | Symbolic links, hard links and nodes can replace deleted files | Overlay/Witness | partial, violated in part | The code violates the claim (C44_violated, C44_node_violated, C44_folder_violated: the mark of the deleted path is not removed, missing parent folders are not made). Proved if the path was never deleted and its folder is in the overlay or can be made. |
| C45 | Renaming moves a file and leaves nothing behind | Overlay/History, Overlay/Witness | partial, violated in part | The code violates the claim (C45_violated: the archive still shows the old path of a changed file; C45_link_violated, C45_folder_violated: links become files, folders become empty files). Proved for files that only one layer has. |
| C46 | Writes are read back and the archive below is never modified | Overlay/History | partial | Proved for every history of calls (see C43) that reading gives the bytes of a plain file tree with the same history, also through handles (C51); the archive is not part of the state, so nothing changes it. The code violates the claim for handles that were opened before the first write (C51_violated). |
| C47 | Truncating keeps the beginning of the file | Overlay/History, Overlay/Witness | partial, violated in part | The code violates the claim (C47_violated: truncating a file that was modified before leaves only zeros). Proved for files that only the archive has and for truncating to nothing. |
| C48 | Metadata changes persist and override the archive | Overlay/Meta | partial, violated in part | The code violates the claim for recursively mounted archives (C48_violated) and loses mode and owner on the first write (C48_write_violated). Proved for all histories of chmod, chown and utimens after every other history without recursive mounting. |
| C49 | Committing an overlay gives the archive that was visible | Overlay/Commit | partial, violated in part | The code violates the claim (C49_violated: a member stored as d//f cannot be deleted; C49_link_violated: a link to a folder in the overlay is lost; C49_folder_violated: deleting the only member below an implied folder removes the folder; C49_replaced_violated: a file replaced by a folder). Proved for files and for folders of archives with plain unique member names. |
| C50 | The overlay database is protected | Overlay/Paths | partial, violated in part | The code violates the claim (C50_violated: the database can be looked up and read by its name; C50_deleted_violated: it can be deleted). Proved: no listing shows it, and calls that do not name it leave it alone. |
| C51 | File handles are unique and stay valid until released | Fuse/Handles, Fuse/Sessions | partial, violated in part | The code violates the claim (C51_violated: a handle opened before the first write keeps reading the old bytes). Proved: handles are never shared, for all sequences of calls; for all sessions whose reads go through handles opened in the overlay or to files not written since, reads and writes act on the file that was opened; handles opened only for reading never write. Assumes that a file that is open is not removed or replaced (libfuse hides such files). |
| C52 | Directory listings through the mount agree with attribute queries | Overlay/Paths | partial, violated in part | The code violates the claim for user files that have the name of the database in any folder (C52_violated). Proved for all other names; that every listed name can be looked up is proved for all names. |
| C53 | Without a write overlay the mount is read-only | Fuse/Handles | partial | Proved for every sequence of calls, with and without an overlay. Missing: without an overlay, operations that FuseMount does not define (e.g. chmod, mkdir) are answered by the FUSE library, which is not in the repository and not modelled. |
| C54 | Mounting several sources under one root loses none | Fuse/MultiMount | partial, violated in part | The code violates the claim (C54_violated: with the control interface nothing can be mounted). Proved for all sources with proper names, whatever they are. |
| C55 | Parallel zstd compression keeps the order | Compress/Zstd | proved | Every input, number of threads, frame size above zero, and order of completion; the workers are modelled more liberally than a pool. The compressor is any function with an inverse on frames. A frame size of zero gives an empty output (C55_zero). |
| C56 | The preferred available decompression backend is used | Detect/Backends | proved | Every set of installed modules, priorities and enabled backends. |
| C57 | Archive backends are tried in priority order, each once, and failures fall through | Detect/Backends, Fat/Header | partial, violated in part | The code violates the claim (C57_violated: the check for FAT images raises and the backends after it are not tried). Proved for every set of backends if no check raises and backends that return nothing put a given file object back, as libarchive does (C57_libarchive). |
| C58 | The magic-byte index does not change format detection | Detect/Formats | proved | Every registry that can be reached by replacing checks, every file and position; sets are lists. |
| C59 | Zstandard and LZ4 detection skips any number of skippable frames | Detect/Frames | proved | Every file, any number of skippable frames. |
| C60 | AR members are found at their place and read back | Formats/Ar | proved | Every list of members with short and BSD-style names, any data; truncated headers and a wrong magic are errors. |
| C61 | GNU long names of AR members are resolved | Formats/Ar | partial, violated in part | The code violates the claim (C61_violated: names after the first of the table are not found because the position is used as an index into the list of names). Proved for the first name of every table, and for thin archives. |
| C62 | ASAR archives: header check is exact and every entry is listed once | Formats/Asar | partial, violated in part | The code violates the claim for archives with links or files kept outside (C62_violated: they cannot be opened). Proved for every header and for every tree of files and folders. |
| C63 | OGG streams are demultiplexed completely | Formats/Ogg | proved | Every sequence of pages of interleaved streams, with and without an end page. A stream number that is used again after its end is not well-formed (then the first stream is lost, see the example). |
| C64 | Seekable access into sequential archives returns the right bytes | Formats/Libarchive | partial, violated in part | The code violates the claim (C64_violated: a position behind the end is not kept). Proved for all histories of reads and seeks inside of the member, for every state of the cache before each call, every chunk size. libarchive itself is represented by the members it gives. |
| C65 | Empty members of sequential archives read as empty | Formats/Libarchive | partial, violated in part | The code violates the claim (C65_violated: an empty member cannot be read); proved for every archive that this is always so (C65_always). |
| C66 | SquashFS file views behave like the file | Formats/SquashFS | partial, violated in part | The code violates the claim (C66_violated: the position that is told ignores what was read; C66_relative_violated: relative seeks). Proved for all histories that seek to absolute positions before they read. The blocks the library gives are the pieces of the file. |
| C67 | Inode references survive storage in the index | Formats/SquashFS | proved | Every pair of a block and an offset in the range of the format. |
| C68 | FAT files read along their cluster chain | Fat/Chain | partial, violated in part | The code violates the claim (C68_violated: a seek before the begin is accepted, and afterwards the begin of the file is somewhere else). Proved for all histories without negative positions, every chain and cluster size; positions are limited by the size of the file. |
| C69 | The FAT table decodes and encodes without loss | Fat/Table | partial, violated in part | The code violates the claim for FAT12 (C69_violated, C69_even: the last entry is always lost if the number of entries is even). Proved for FAT16, FAT32 and odd numbers of entries. |
| C70 | Following a cluster chain ends properly | Fat/Chain | partial, violated in part | The code violates the claim (C70_violated: a cycle is followed forever; C70_range_violated: a chain that leaves the table ends as if it were complete). Proved for all chains without repetition, and exactly what the end and errors mean. |
| C71 | DOS timestamps round-trip | Fat/Dates | proved | Every date and time, and every number that can be stored; numbers that are no date give 1980-01-01. |
| C72 | Long file names are reassembled in order | Fat/Names | proved | Every name of up to 20 pieces that does not end with U+0000 or U+FFFF, every order of the pieces, every directory. Names are UTF-16 code units. |
| C73 | Folder listings give the metadata lookups give | Formats/Folder | partial, violated in part | The code violates the claim (C73_violated, C73_always: the entries of every listing have wrong link targets and paths). Proved: names, and sizes, times, modes and owners except for links that point outside. |
| C74 | Relative links that leave the mounted folder are recognised exactly | Formats/Folder | proved | Every tree of the host file system and every depth. |
| C75 | Nothing exists below a regular file of a git mount | Formats/Git | partial, violated in part | The code violates the claim (C75_violated: every path below a file is found as this file). Proved for all other paths; C75_exact says exactly what is found. Submodules are not modelled. |
| C76 | RAR listings show implied folders as folders | Formats/Rar | partial, violated in part | The code violates the claim (C76_violated: folders without an entry are listed as files; C76_order_violated: also folders with an entry, if a file follows; C76_absolute_violated: absolute names are listed but not found). Proved: names of listings, exactly which entry a listing shows, lookups, and agreement if the own entry is the last one. |
| C77 | 7z members are extracted completely | Formats/SevenZip | partial, violated in part | The code violates the claim (C77_violated: a chunk that is longer than everything before it loses its beginning). Proved for all other sequences of chunks; C77_exact says what is kept for all sequences. |
| C78 | All embedded objects of a PDF are shown once | Formats/Pdf | partial, violated in part | The code violates the claim (C78_violated: documents with only text are an error; C78_images_violated: only one of several images and texts is shown; C78_hidden: none behind attachments). Proved for documents without texts and images; the numbers are distinct and open the right object. |
| C79 | SQLAR listings show exactly the children of the folder | Formats/Sqlar | partial, violated in part | The code violates the claim (C79_violated: a folder called [a]; C79_foreign_violated: a folder called a*; C79_absent_violated: paths that do not exist). Proved for paths without pattern characters, and for archives with names that are not normal. The operator GLOB of SQLite is modelled. |
| C80 | Content hashes do not depend on chunking | Formats/Hashing | partial, violated in part | The code violates the claim (C80_movie_violated: between 64 and 128 KiB the last words differ from the first and last 64 KiB). Proved for all algorithms that are fed in chunks, CRC-32 in particular, and for the movie hash of files of at least 128 KiB; C80_movie_small says what smaller files give. The algorithms of hashlib are arbitrary states with an update. |
| C81 | The parallelization option is parsed completely | Cli/Parallelization | partial, violated in part | The code violates the claim for errors (C81_violated: a value that is no number is accepted if the same key follows). Proved: numbers, lists, the default, and errors for lists with distinct keys. Only ASCII digits. |
| C82 | A mount point chosen automatically never hides the source | Cli/MountPoint | partial, violated in part | The code violates the claim (C82_violated: dir/.tar is mounted over dir/; C82_empty_violated: a URL without a name gives an empty mount point). Proved for all sources whose last component is more than a suffix, and that the mount point never is the source. |
| C83 | Command lines written to the control file reach the command unchanged | Cli/Command | partial, violated in part | The code violates the claim without arguments (C83_violated: the program name becomes the argument). Proved for every list of at least one argument, every delimiter, and every cutting into writes. The text codec is a parameter. |
| C84 | Suffix stripping removes exactly a known compression suffix | Cli/Suffix | partial, violated in part | The code violates the claim (C84_violated: the name .gz becomes empty). Proved: the result is the name without a matching suffix of the table or the name itself, which suffix is taken, and what negated and category rules do. Character classes in patterns and case folding outside ASCII are not modelled. |
| C85 | Index locations are tried in order and never inside the mounted folder | Cli/IndexPaths | partial, violated in part | The code violates the claim (C85_violated: relative folders in the mount point are kept; C85_memory_violated: an index in memory becomes a file; C85_order_violated: beside the archive and the home folder are replaced by the current folder). Proved: order, explicit paths and URLs, compressed defaults, and for absolute locations without links that nothing in the mount point remains. |
| C86 | A file opened as a split file is one of the joined parts | Names/SplitFile | partial, violated in part | The code violates the claim (C86_violated: f.07 opened next to f.00 and f.01). Proved when the number of the file lies within the found sequence. |
| C87 | The parts of a detected split file exist | Names/SplitFile | partial, violated in part | The code violates the claim for symbolic links (C87_violated). Proved without links. |
| C88 | Members appended to an archive show up after remounting | Tar/Index | partial, violated in part | The code violates the claim when the last member is a nested TAR (C88_violated). Proved for archives indexed without recursion: the extended index equals the index of the whole archive. |
| C89 | A member named like an archive that is none stays a file | Tar/Index | partial, violated in part | The code violates the claim (C89_violated: the newest version of the name is an empty folder). Proved: a version of the name that is a regular file with the contents of the member always exists. |
| C90 | Asking whether a path can be mounted changes nothing | Compose/Subvolumes | partial, violated in part | The code violates the claim (C90_violated: the query creates the missing parent folders). Proved: the answer is right for every tree, and nothing changes if the parent folder exists. |
| C91 | Recursive auto-mounting respects the recursion limit and never replaces a mount | Compose/Automount | proved | Every order of mount attempts on arbitrary paths. Opening an archive is an arbitrary partial function. |
| C92 | Auto-mounted archives are listed where they are mounted | Compose/Automount | partial, violated in part | The code violates the claim (C92_violated: a mount point moved into a folder that does not exist). Proved for folders for which the source lists something. |
| C93 | Lazy mounting shows the same as mounting everything at once | Compose/Lazy | proved | For archives mounted at their own path. Assumes what Regular states: nothing lies below an archive file in its own source, and recursion depths inside of one source do not decrease downwards. |
| C94 | The name stored in a gzip file names the only file of the mount | Detect/Gzip | partial, violated in part | The code violates the claim (C94_violated: an extra field before the name is an error; C94_ends_violated: a name without end is read forever). Proved for all headers without extra field whose name ends. |
| C95 | The signature of a file is enough to recognise it, and a self-extracting RAR is recognised | Detect/Signatures | partial, violated in part | The code violates the claim (C95_violated: an executable with an archive behind it is not recognised). Proved for signatures at the beginning. |
| C96 | The type of a FAT volume follows from its number of clusters | Fat/Header | partial, violated in part | The code violates the claim (C96_violated: the sectors of the root directory are counted as data). Proved: exactly which volumes get the right type. |
| C97 | Testing whether a file is a FAT image gives an answer | Fat/Header | partial, violated in part | The code violates the claim (C97_violated: the beginning of an image, shorter than a sector). Proved for all files of at least 512 bytes. |
| C98 | A SquashFS image behind other data is found | Detect/Signatures | partial, violated in part | The code violates the claim (C98_violated: the search starts at the wrong place if the file is not at its beginning). Proved for files at position 0. |
| C99 | Damage to the pages of an OGG file is noticed | Formats/Ogg | partial, violated in part | The code violates the claim (C99_violated: repeated pages are accepted because the last number is never stored). Proved for a missing first page. |
| C100 | Half-read archives on one file object do not disturb each other | Formats/SharedFile | partial, violated in part | The code violates the claim for file objects (C100_violated: opening an archive moves the file of the others). Proved for paths, and for file objects if only the newest archive is read. The seek callback is not modelled. |
| C101 | Incomplete long names are not shown as names | Fat/Names | partial, violated in part | The code violates the claim (C101_violated: with the first piece missing the end of the name is the name). Proved if the last piece is missing. |
| C102 | Damaged long names do not hide a folder | Fat/Names | partial, violated in part | The code violates the claim (C102_violated: leftover pieces with the same number are an error for the whole folder). Proved if no run of pieces has a number twice. |
| C103 | The end mark of a FAT folder ends it | Fat/Names | partial, violated in part | The code violates the claim (C103_violated: clusters behind the one with the end mark are still read). Proved if they begin with an end mark too. |
| C104 | Looking for an incremental backup comes to an end | Tar/Offsets | partial, violated in part | The code violates the claim (C104_hangs, C104_violated: a folder with a negative size keeps the check at the same header for ever, without looking at the limits). Proved for all files without negative sizes, with a bound on the rounds. |
| C105 | GNU incremental backups are recognised | Tar/Offsets | partial, violated in part | The code violates the claim (C105_violated: after the label of a volume the folder entry is skipped, as after every header that is not of a plain file). Proved for folder entries that are first or follow a plain file; no other archive is recognised. |
| C106 | A TAR is never split between a member and the headers that belong to it | Tar/Offsets | proved | For archives that are laid out as their size fields and size records say. |
| C107 | The size in an extended header is found | Tar/Offsets | proved |  |
| C108 | Members of incremental backups have their own names | Tar/Incremental | partial, violated in part | The code violates the claim (C108_violated: a prefix of one folder is removed although it is no time). Proved for times, empty prefixes, paths of several folders and members behind a long link, and which members of an archive are treated. Names are bytes. |
| C109 | Extended attributes in TAR files are shown as they were stored | Tar/Attributes | proved | Decoding of quoted names as UTF-8 is not modelled. |
| C110 | A malformed attribute does not make an archive unreadable | Tar/Attributes | partial, violated in part | The code violates the claim (C110_violated: a Base64 value of one character). Proved for values of the alphabet with any other length; C110_values says exactly which of these are accepted. |
| C111 | With a write overlay the free space of the overlay is shown | Fuse/Stat | partial, violated in part | The code violates the claim (C111_violated, C111_ignored: the merged statistics are overwritten, so that the overlay has no effect). Proved where both sides report the same. |
| C112 | The total size of the mount is that of its source | Fuse/Stat | partial, violated in part | The code violates the claim (C112_violated: the fragment size is raised to 256 KiB and the number of blocks is not adjusted). C112_exact_partial says exactly when the size is right. |
| C113 | Times and block counts are those of the file | Fuse/Stat | partial, violated in part | The code violates the claim for times after the year 2116 (C113_violated: a second too early). Proved for all times before and for the number of blocks. Doubles are modelled as natural numbers rounded to 53 binary digits, ties to even; times of fractions of a second are not modelled. |
| C114 | A folder mounted with an index shows exactly its files, with their contents | Formats/IndexedFolder | partial, violated in part | The code violates the claim for names that are not UTF-8 (C114_violated: they are stored with escapes, and the escaped name is opened). Proved for all trees whose names are UTF-8. Entries that vanish while the index is made are not modelled. |
| C115 | Every listed name of a FAT volume leads to its own entry | Fat/Source | proved | The entries of a folder are given with decoded names (see C72, C101-C103 for how they are parsed); keeping parsed folders in memory is not modelled. |
| C116 | On FAT volumes, exists agrees with lookup | Fat/Source | partial, violated in part | The code violates the claim (C116_violated: a path below a file raises ENOTDIR). Proved for all paths that do not lead through a file. |
| C117 | Short names of FAT volumes are shown as base and extension | Fat/Source | proved | The code page is a function on bytes; the method writes 0xE5 into the stored name, which is not modelled as nothing reads it afterwards except the method itself. |
| C118 | An index is only used for an archive of the size it was made for | Index/Reuse | partial, violated in part | The code violates the claim (C118_violated: archives that have grown are accepted). Proved: archives that became smaller, that have another time if times are verified, or that have no path are refused; an index for the present archive is used. TAR archives have their own check, see C23 and C24. |
| C119 | A mount that verifies modification times shows the archive as it is | Index/Reuse | partial, violated in part | The code violates the claim (C119_violated: a mount without verification stores the new time in the old index). Proved for histories in which every mount verifies. Archives that are not TARs, one place for the index; interrupted mounts are not modelled. |
| C120 | Candidates for an index are judged by their own contents | Index/Reuse | partial, violated in part | The code violates the claim (C120_violated: after an invalid compressed index, the contents of this one are judged in place of the next candidate, which is then removed). Proved where no compressed index is invalid. Downloads are not modelled. |
| C121 | Arguments that differ from those of the index are reported | Index/Reuse | partial, violated in part | The code violates the claim (C121_violated: every mount stores its own arguments in the index). Proved as long as all mounts before had the same arguments. Arguments are compared as a whole. |
| C122 | Mounting an index file does not remove it | Index/Reuse | partial, violated in part | The code violates the claim (C122_violated: any database without the tables of an index is removed, as the flag readOnly is ignored). C122_kept_partial says exactly which files stay. |
| C123 | An index that a newer version made is reported | Index/Reuse | partial, violated in part | The code violates the claim (C123_never: the comparison is called with a row and always fails). Proved what the comparison gives for versions. |
| C124 | Stored seek points are found again | Compress/SeekPoints | proved | Libraries are modelled by what they export and import; that they import their own exports is a hypothesis. Failing exports are not modelled. See C06 and C07 for the blobs. |
| C125 | Seek points of every compression of TARs are handled | Compress/SeekPoints | partial, violated in part | The code violates the claim (C125_violated: raw deflate data raise NotImplementedError). C125_partial and C125_methods_partial say exactly which compressions fail. |
| C126 | Compressed TARs are opened if a library for them is installed | Detect/Open | partial, violated in part | The code violates the claim (C126_violated: small gzip files with rapidgzip as the only library). Proved for all other files if libarchive is not prioritised. Whether libraries can read a file is an arbitrary function of the format. |
| C127 | rapidgzip is only used for large files and if it is not ranked below indexed_gzip | Detect/Open | proved | The slow-drive check and the number of threads are not modelled. |
| C128 | Exactly the zlib headers are recognised | Detect/Open | proved | The check reads two bytes from the position of the file. |
| C129 | A TAR passes the check of its own index | Tar/Verify | partial, violated in part | The code violates the claim (C129_violated, C129_deep_violated: rows in archives that are nested twice never pass, as the recursion depth is taken for a flag). Proved for all rows at the top and, without path transformations and for proper names, in archives directly in the archive. Owners, times and sparse members are not modelled. |
| C130 | Rows that pass the check describe members of the TAR | Tar/Verify | proved | For the columns that are modelled; the others are compared in the same way. |
| C131 | Checking rows against a TAR gives an answer | Tar/Verify | partial, violated in part | The code violates the claim (C131_violated: StopIteration if the header was overwritten with zeros). Proved where there is a header or nothing at the place of every row. Errors of Python other than those of the tarfile module are not modelled. |
| C132 | Members of a ZIP are shown with their type and permissions | Formats/Zip | partial, violated in part | The code violates the claim (C132_violated: pipes and devices are shown as regular files; the setuid, setgid and sticky bits and empty permissions are changed too). Proved for regular files, folders and links with permissions; C132_types says what is shown for all entries. |
| C133 | Every unencrypted ZIP can be mounted, with the times of its members | Formats/Zip | partial, violated in part | The code violates the claim (C133_violated: entries without a date raise ValueError; C133_first_violated: a first file with an unknown compression is taken for a missing password). Proved otherwise. zipfile is modelled by the entries and contents it gives. |
| C134 | With the password given, encrypted members of a ZIP can be read | Formats/Zip | partial, violated in part | The code violates the claim (C134_violated: with a plain file in front the password is never set). Proved if the first file that is not empty is encrypted. |
| C135 | Opening a path of a ZIP gives the contents of the member with this path | Formats/Zip | proved | For archives in which no two entries share a local header. Names are those that zipfile decodes. |
| C136 | The value of an attribute of an HTML tag is found | Formats/Html | partial, violated in part | The code violates the claim (C136_violated: names in upper case are not found, although the parser gives them in lower case; C136_other_violated: nothing is found after a name with an underscore or an unquoted value with a percent sign). Proved for names and unquoted values of HTML 2.0 in lower case. |
| C137 | Opening a file that is embedded in HTML reads exactly the value of the attribute | Formats/Html | partial, violated in part | The code violates the claim (C137_violated: the span in bytes is used as a number of characters, so what follows a value that is not ASCII is read too). Proved for values in ASCII with arbitrary text around; C137_read says what is read for all values. html.parser is not modelled, and neither are files with carriage returns. |
| C138 | A data URL gives the octets that RFC 2397 defines | Formats/Html | partial, violated in part | The code violates the claim (C138_violated: octets above 127 cannot be read). Proved for octets of ASCII and for base64. html.unescape, the codecs and base64 are parameters with laws. |
| C139 | An HTML file can be mounted wherever it comes from | Formats/Html | partial, violated in part | The code violates the claim (C139_violated: file objects that close themselves at the end of a with block are closed by the check of the format). Proved for paths and other objects. |
| C140 | Members of a 7-Zip archive are found under their paths | Formats/SevenZipSource | partial, violated in part | The code violates the claim (C140_violated: an archive without times cannot be mounted; C140_twice_violated: of several members with the same path only the last one can be reached). Proved for the last member with each path if all have times. py7zr is modelled by the list and contents it gives; links are shown as files, as py7zr does not tell them apart. |
| C141 | The password of a RAR archive is found among the given ones | Formats/Passwords | partial, violated in part | The code violates the claim (C141_violated: with a wrong password for an encrypted list of members an empty folder is mounted; C141_wrong_violated: after a plain first file any password is accepted). Proved if the list or the first file is encrypted, and if only the right password is given. rarfile is modelled as the comments in the code describe it. |
| C142 | The password of a 7-Zip archive is found among the given ones | Formats/Passwords | partial, violated in part | The code violates the claim (C142_violated: with a wrong password for an encrypted list of members an empty folder is mounted; C142_unused_violated: after a plain first file no password is set). Proved if the list or the first file that is not empty is encrypted. py7zr is modelled as the comments in the code describe it. |
| C143 | An SQLAR can be mounted exactly if it is plain or one of the passwords fits | Formats/Passwords | proved | Opening a database with a key succeeds exactly if it is encrypted with this key. |
| C144 | A union mount shows the files of sources that keep no versions | Compose/Unversioned | partial, violated in part | The code violates the claim (C144_violated: a source that reports one version for every path hides the files that only earlier sources have). Proved which files are found and which are hidden; C144_partial covers lists where only the first source always reports one version. |
| C145 | A URL with the protocol of the fsspec adaptor opens the path that it names | Compose/Adaptor | partial, violated in part | The code violates the claim (C145_violated: the prefix is removed with an index instead of a slice, so that ratar://foo opens a path of one character). Proved for paths without the prefix; what is opened for others is stated in C145_character. |
| C146 | The fsspec adaptor lists each entry of a folder with its full path | Compose/Adaptor | partial, violated in part | The code violates the claim (C146_violated: for sources that list names only, the attributes are looked up without the folder and listed under doubled paths). Proved for sources that list attributes, for lists without details and for missing folders. |
| C147 | The fsspec adaptor opens archives given as chained URLs | Compose/Adaptor | partial, violated in part | The code violates the claim (C147_violated: a protocol without target options raises a TypeError). Proved for all other combinations of options. |
| C148 | A mounted remote folder shows the remote tree below it | Formats/Fsspec | proved | Proved for all styles of paths of the library, for Dropbox and for HTTP. That the library answers as the server is (`Serves`, `ServesHttp`) is a hypothesis. Of folders over HTTP only the type is known. |
| C149 | A remote folder can be part of a union mount | Formats/Fsspec | partial, violated in part | The code violates the claim (C149_violated: listing raises an error instead of giving None if the remote side does not have the folder; C149_file_violated: a file is listed as an empty folder). Proved for folders that the remote side has. |
| C150 | A mounted EXT4 image shows its tree | Formats/Ext4 | partial, violated in part | The code violates the claim (C150_violated: one name that cannot be decoded makes the folder unlistable). Proved if all names of the folder can be decoded. The library ext4 is modelled by its inodes and entries. |
| C151 | Symbolic links of an EXT4 image lead where they do on the volume | Formats/Ext4 | partial, violated in part | The code violates the claim (C151_violated: symbolic links are shown without target). Proved for everything else than symbolic links. |
| C152 | A URL of a git repository opens what it names | Formats/GitUrl | partial, violated in part | The code violates the claim (C152_violated: a path with an at sign is taken for a reference). Proved for parts that cannot be mistaken; what is mounted, opened and refused is proved for all trees. Paths that lead through a file open the file (C75). |
| C153 | A git repository is mounted at the right commit | Formats/GitUrl | partial, violated in part | The code violates the claim (C153_violated: init.defaultBranch of the user is taken for the name of a branch of the repository; C153_time_violated: files of another commit have the time of the commit that is checked out). Proved without this option, and for the tree of references. |
| C154 | URLs of remote files mean what is written in them | Formats/Url | proved | The match of the regular expression is modelled by a function, as each of its parts can match in one way only. |
| C155 | A URL opens the file or mounts the folder that it leads to | Formats/Url | proved | The remote side is given by what the library tells about paths. Git URLs are covered by C152. |
| C156 | A command to unmount in the control file unmounts what it names | Cli/Control | partial, violated in part | The code violates the claim (C156_violated: as the returned list is not empty, the command ends before the other process is started). Proved for all paths in the running mount; C156_arguments shows that the list of the others is right. |
| C157 | A command to mount in the control file mounts at the path it names | Cli/Control | partial, violated in part | The code violates the claim (C157_violated: an absolute mount point in the running mount is not shortened, so that the source appears below the mount point at the whole path). Proved for relative mount points. |
| C158 | Archives are mounted as deep as asked for | Cli/Depth | partial, violated in part | The code violates the claim (C158_violated: a negative depth lets TARs fail; C158_compressed_violated: with depth 0 a compressed TAR is shown as one file). Proved for TARs without compression and for compressed ones without --recursion-depth. Other backends, which are tried after a failure, are not modelled. |
| C159 | Lists with commas are read back as written | Cli/Options | partial, violated in part | The code violates the claim (C159_violated: an item that begins with a comma moves it to the item before). Proved for items that do not, and for lists with spaces after the separators. |
| C160 | The passwords of the command line and of the file are tried in order | Cli/Options | proved | A file that ends with a line feed adds the empty password (C160_trailing). |
| C161 | Index folders and backends are those of the command line | Cli/Options | proved | JSON is modelled by two functions that are inverse to each other. |
| C162 | Each source is mounted once and in the order given | Cli/Sources | proved | The check of one source is a function of the host. |
| C163 | Unmounting tells the truth | Cli/Unmount | partial, violated in part | The code violates the claim (C163_violated: os.path.ismount is False for a mount whose process was killed, so that the mount stays and the exit status is 0; C163_debug_violated: with debug messages and without fusermount, the command raises). Proved for mount points that answer. |
| C164 | Options for FUSE are passed on | Cli/Sources | proved |  |
| C165 | Members that libarchive lists are shown as they are | Formats/LibarchiveRows | partial, violated in part | The code violates the claim (C165_violated: a hard link is shown as a symbolic link; C165_target_violated: its target is relative to the archive and leads elsewhere from a subfolder; special files are shown as regular ones, C165_special). Proved for regular files, folders and symbolic links. |
| C166 | An archive that libarchive can list can be mounted | Formats/LibarchiveRows | partial, violated in part | The code violates the claim (C166_violated: one name that cannot be decoded lets the whole archive fail). Proved if all names can be decoded; a TAR without members is refused (C166_empty). |
| C167 | A compressed file is shown without the suffix of its compression | Formats/LibarchiveRows | proved | The mapping to small letters is a function that neither makes nor removes dots. |
| C168 | SquashFS images are shown as they are | Formats/SquashFSRows | partial, violated in part | The code violates the claim (C168_violated: a character device is shown as a symbolic link, because the bits of regular files are added to its type; C168_special gives the types of all special files). Proved for files, folders and symbolic links; C168_only covers the absence of other files for all images. Owners are never shown (C168_owner). The folders of the image are a tree given by the library. |
| C169 | Files embedded in HTML are shown under the address they were saved from | Formats/EmbeddedRows | proved | The hash, the table of media types and the mapping to small letters are parameters. Two files do not begin at the same place of the text. |
| C170 | HTML files can be mounted whatever they embed | Formats/EmbeddedRows | partial, violated in part | The code violates the claim (C170_violated: a data URL with a letter that is not ASCII and no charset lets the whole file fail). Proved if all embedded files can be decoded. |
| C171 | Files in PDFs have the size that is shown | Formats/EmbeddedRows | partial, violated in part | The code violates the claim (C171_violated: an empty attachment is listed but cannot be opened). Proved for files that are not empty. How the library finds the objects is not modelled. |
| C172 | Data URLs in attributes of HTML are found | Formats/EmbeddedRows | proved | Attributes of a tag have different names, as HTML requires. |
| C173 | Trying to mount a file leaves it as it is | Index/Direct | partial, violated in part | The code violates the claim (C173_violated, C173_backends: every SQLite database that is neither an archive nor a finished index is removed when somebody tries to mount it; C173_removed says exactly when). Proved for indexes and files that are no databases, and for file objects. Other backends are assumed to read only. See also C122. |
| C174 | An index without a given path can be made wherever the archive is | Index/Writable | partial, violated in part | The code violates the claim (C174_violated, C174_fails: if no place can be used, the only connection is closed and large or compressed archives cannot be indexed). Proved if some place can be used, without any places, and for small archives. Parent folders, xattrs and compression offsets are not part of the rows here. |
| C175 | A new index is made at the first place that can be used | Index/Writable | partial, violated in part | The code violates the claim for the memory (C175_violated: it is only used if a file named ":memory:" can be written to the working directory). The rest is proved. Creation of parent folders is not modelled. |
| C176 | No index is written unless asked for | Index/Writable | partial, violated in part | The code violates the claim (C176_violated, C176_written: compressed archives and those with more rows than the limit get an index on disk although writeIndex is false). Proved for all others. |
| C177 | Extended attributes pass through all layers | Compose/LayerXattrs | partial, violated in part | The code violates the claim (C177_violated: the root folder below an auto-mount layer shows no attributes; C177_inner_violated: with an auto-mount layer over a version layer no entry does). Proved for stacks in which get_mount_source does not change what it returns (Sound); that metadata is restored is proved for all stacks (C177_restored). |
| C178 | Split files are joined when mounting recursively | Compose/SplitMount | partial, violated in part | The code violates the claim in three ways. C178_violated: inside of nested archives parts are not found, because the folder is listed with the path of the whole mount. C178_right_violated: parts of another folder are taken instead. C178_inside_violated: without stripRecursiveTarExtension the joined file keeps the name of a first part and is never opened (C178_kept). Proved for parts in the root source and for names that are stripped. |
| C179 | A file that cannot be mounted does not keep the others from being mounted | Compose/SplitMount | partial, violated in part | The code violates the claim (C179_violated: a folder named like a second part ends mounting with an exception, because parts are opened outside of the try; C179_lost_violated: a listed part that is not found does so, too). Proved if no file has the name of a first part. |
| C180 | Every file with the extension of an archive is mounted recursively | Compose/SplitMount | partial, violated in part | The code violates the claim (C180_violated: static libraries like z.a are taken for the first part of a split file and are not mounted). Proved for all other extensions. Which archives can be opened is a parameter. |
| C181 | A mounted TAR archive shows its members | Fuse/TarMount | proved | From the bytes of the archive (headers are parsed by a given codec) to the bytes of a read. Sparse members, devices, folders with a link name, times, owners, the write overlay and recursive mounting are not part of it. |
| C182 | A folder of a mounted TAR archive lists its members | Fuse/TarMount | proved | Same model as C181. Only the names are part of it; readdir uses list_mode, whose names are those of list. |
| C183 | Every file that some installed backend can read is accepted as an argument | Cli/InputFile | partial, violated in part | The code violates the claim (C183_violated: an encrypted SQLAR whose name does not end with .sqlar is refused). Proved for all other formats, with the exact criterion (C183_criterion, C183_only) and for URLs and folders. What detect_formats finds and whether data is random are parameters. |
| C184 | The error for a missing module names it | Cli/InputFile | partial, violated in part | The code violates the claim: no error ever names a module (C184_never), because the code for it is unreachable. Proved: the file is refused only if every backend for its formats lacks a module (C184_partial). |
| C185 | Large Zstandard files with one frame give a warning | Cli/InputFile | partial, violated in part | The code violates the claim: the backend is looked up as indexed_std, the KeyError is swallowed, and there is never a warning (C185_never). Nothing else of the claim is left to prove. |
| C186 | Regular data is not taken for encrypted | Cli/Random | proved | With real numbers instead of floating point numbers. |
| C187 | Hashes are added to an existing index | Index/Loaded | partial, violated in part | The code violates the claim for TARs: with a loaded index hashes are never computed (C187_violated, C187_tar). Proved for all other archives with an index. |
| C188 | An index that may not be changed can be used | Index/Loaded | partial, violated in part | The code violates the claim: missing hashes (C188_violated) and seek points of another library (C188_seek_violated) are written to the read-only database, which raises. Exactly when it can be used is C188_hashes_partial and C188_tar_partial; that it is never changed is C188_unchanged. bzip2 and Zstandard are not modelled here. |
| C189 | Hashes computed before the process is killed are kept | Index/Loaded | partial, violated in part | The code violates the claim if the process is killed: nothing is committed before the end (C189_violated, C189_lost). Proved for exceptions, and that further runs give the same hashes. That SQLite may write parts of a transaction earlier is not modelled. |
| C190 | Packed files are read back, in every usual format of TAR | Fuse/TarFiles | proved | The header functions of CPython 3.11 are modelled (Verif.Tar.Header) instead of being a parameter. Sparse members, devices, owners and times are not part of it; bytes that are not UTF-8 are decoded by an arbitrary function; no path below a file, at most 128 hard links. |
| C191 | Damage to a header is noticed | Tar/Damage | partial, violated in part | The code violates the claim (C191_violated): the damaged member and everything behind it is silently missing. Proved: the header is refused or means the same (C191_detected_partial); what is in front is shown right, and nothing else (C191_before_partial). Without --ignore-zeros. |
| C192 | Incomplete archives give a warning | Tar/Damage | partial, violated in part | The code violates the claim if the cut is inside of the headers of a member (C192_violated, C192_headers_partial). Proved for cuts inside of data (C192_data_partial). |
| C193 | A TAR archive with a write overlay behaves like the unpacked tree | Overlay/OverTar | partial, violated in part | The same operations fail as in C46 (C46_violated and the hypothesis Works), e.g. a symbolic link created in a folder that is only in the archive (C193_violated). Owners, times and the special folders of versions are not part of it; hard links to folders are excluded. |
| C194 | A committed archive shows the changes when it is mounted again | Overlay/CommitTar | partial, violated in part | The code violates the claim (C194_violated: removing the only file of a folder without a member of its own removes the folder; see also C49). Proved for files without what the overlay refuses and what the commit gets wrong, and for everything if each folder has a member. Archives with hard links or .. in names are excluded. What GNU tar does is specified. |
| C195 | A FAT image shows the files and folders that were put on the disk | Fat/Demo, Fat/Image, Fat/Mounted, Fat/Tree | partial, violated in part | The code violates the claim for seeks before the begin of a file (C195_violated, see C68). Proved: the mount and all paths; histories without such seeks (C195_file_partial). Hypotheses: 12-bit tables have room for another entry (C69), the number of clusters tells the type also to the code (C96), names are unambiguous and slots behind the end mark begin with 0 (C103). Code page, spaces and time zone are parameters. |
| C196 | Files that are put into an AR archive and mounted are read back | Fuse/ArMount | proved | Names in headers or in front of data; tables of long names are C61, which is violated. self.transform is the identity. Paths with a part that ends in ".versions" are excluded where something must not exist. The time and owner of the root are not modelled. |
| C197 | An ASAR archive that is mounted shows the files of its header with their bytes | Fuse/AsarMount | proved | json.load is a parameter; links and unpacked files fail the mount (C62_violated). The names in the header are proper names. self.transform is the identity. Paths with a part that ends in ".versions" are excluded where something must not exist. |
| C198 | TAR archives inside of a TAR archive that is mounted recursively show their files | Fuse/TarNested | partial, violated in part | The code violates the claim: hard links of inner archives are resolved in the outermost archive (C198_violated). Proved if there are no hard links in inner archives. Lists and absence are proved without this restriction. A member ../x of an inner archive is shown outside of the folder of its archive; the specification of places says so. AutoMountLayer, times and owners are not included; the archive ends with at least one zero byte. |
| C199 | Thin AR archives show links to the files outside of the archive | Fuse/ThinMount | partial, violated in part | The code violates the claim (C199_violated: a file src/a.o is shown as a link named by the position of its path in the table, such as /0 or /9). Proved with this name for every thin archive: the target of the link is the path of the file, the attributes are those in the header, opening it fails, the root lists exactly these links and nothing else exists. Archives without a table of names are not covered. |
| C200 | Renaming a folder through the write overlay moves everything in it | Overlay/MoveFolder | partial, violated in part | The code violates the claim: a folder of the archive becomes an empty file (C200_violated), only the files that were written before are moved (C200_part_violated), a failed rename brings back what was deleted at the new path (C200_failed_violated), moved files are hidden by old deletions below the new path (C200_hidden_violated), and owners set by chown are lost (C200_owner_violated). Proved for folders that are only in the overlay, if nothing was deleted below the new path; the attributes under the conditions in C200_attributes_partial. |
| C201 | Files packed into a ZIP archive and mounted are read back | Fuse/ZipMount | partial, violated in part | The code violates the part about several entries with the same path if their data is not in the order of the central directory: the one whose header comes last in the file is shown (C201_violated). Everything else is proved for archives whose dates exist, whose entries for the same path are in the order of their headers, and whose entries with others below them are folders; zipfile is not modelled, an entry is given with its contents. Restrictions of modes, dates and passwords are those of C132, C133 and C134. |
| C202 | Files packed into a SquashFS image and mounted are read back | Fuse/SquashMount | proved | PySquashfsImage is not modelled: an image is given by the tree of its inodes, the inode at each position, and what each block decompresses to. Owners are always shown as 0 (see C168_owner), and special files are shown with other types (see C168_violated); the claim is about files, folders and symbolic links. The mount is without recursion and without a transformation of the paths. |
| C203 | Files in archives that are mounted with libarchive are read back | Fuse/LibarchiveMount | partial, violated in part | The code violates the claim for empty files: reading one is an error instead of the empty string (C203_violated). For all other files the claim about reads is proved for every history of calls. Attributes are proved for files, folders and symbolic links, without times before 1970 and parts of seconds; hard links and special files are shown otherwise (C165). Archives with names that cannot be decoded cannot be mounted (C166). libarchive is not modelled: it gives the members one after the other with their contents. The archive is given by its path; C100 is about shared file objects. |
| C204 | Older versions of a member that was packed several times can be read through the mount | Fuse/OldVersions, Fuse/OlderMembers | partial, violated in part | The code violates the claim for versions that are hard links: `<path>.versions/<k>` is looked up without resolving them, so it has no type and no bytes (C204_violated, C204_statement). For all other members of TAR archives the claim is proved from the packed files on, also for AR and ZIP archives and for files that are not empty in archives of libarchive (C203). Nothing may be packed at or below the path of the versions folder. |
| C205 | A TAR archive that is split into parts or decompressed in parallel blocks shows the same as the plain archive | Fuse/TarOver | proved | Any file object whose reads continue the content (they may be short, and are empty only at the end) gives the same answers; instances for RawJoinedFileFromFactory, with the lazily opened parts of C113, and for BlockParallelReader with its cache and prefetching (C50). The buffer of io.BufferedReader around joined parts is not modelled; the decompression library is assumed to be right; members are not sparse. |
| C206 | The option for threads has effect for the backend that decompresses the file | Detect/Threads | partial, violated in part | The code violates the claim: the block boundaries are asked from the compressed file, which has none, instead of from the decompressed one, so XZ files are never decompressed in parallel (C206_violated, C206_xz_alone). zlib and deflate files are always decompressed with one thread, too. Proved for bzip2 and gzip, from the text of the option on. |
| C207 | A TAR archive that grows, is mounted, killed while indexing and mounted again shows all packed files | Fuse/TarLife | partial, violated in part | Violated for the code: a process killed after all rows are stored but before the statistics are (four statements), or between dropping and storing the metadata of an extended index (two statements), or in the window of C18, leaves an index that is accepted without any statistics, so members that are appended later are never noticed (C207_violated, C207_unnoticed_violated; the windows are exactly C207_windows and C207_windows_extend). Proved: for all histories whose kills do not leave such an index the next mount shows exactly the packed files (C207_history_partial), in particular without kills (C207_unkilled_partial), through creation, use, extension and removal of the index; and large archives are indeed extended instead of indexed again (C207_extends). The archive is uncompressed and on a local file system, and other programs do not change packed members. |
| C208 | A file is opened with the backend for the format that its name and contents say | Detect/Extension | proved | The tables of formats and backends are those of the code, with the dependencies installed. Checks other than those of AR, RAR and TAR are given as functions, and so is whether the chosen backend can open the file (C57 states what happens if it cannot). Formats that share an extension with an earlier one (.img with FAT and EXT4) are in the table for the earlier one only. |
| C209 | Several TAR archives mounted at the same place are shown as if they were unpacked over each other | Fuse/UnionMount | partial, violated in part | The code violates the claim for hard links: the target is looked up in all archives again, so a link shows the file with which a later archive replaced its target (C209_violated), and a link whose target was packed with a name that begins with ./ is not resolved at all and shown as a file without type, data and size (C209_dot_shown, C209_dot_violated). Proved: for archives that agree about what is a folder (C29 and C30 are about those that do not) paths show the file on top with its data and attributes, also after following hard links over all archives with other names. Versions that are hard links show no data (C204_violated), so C209_versions_partial is for the others, and for paths at or below whose versions folder nothing is packed. Attributes in listings are those of C31. Members are not sparse. |
| C210 | The control interface cannot be changed through the write overlay | Overlay/Controlled | partial, violated in part | The code violates the claim: rename has no check. Moving .ratarmount-control/output away makes it disappear from the control folder (C210_violated), and a file moved to .ratarmount-control/command is hidden behind the control interface (C210_lost_violated). Proved for all other calls, and for histories whose renames stay away from the folder. The paths that the kernel gives are made of names, without . and .. in them. Hard links are among the calls. |
| C211 | Files in 7-Zip archives that are mounted with py7zr are read back | Fuse/SevenZipMount | partial, violated in part | The code violates the claim: a piece that is longer than everything before it loses its beginning, so reads give wrong contents (C211_violated), and with --transform a folder is taken for a hard link to what has its old path (C211_transform_violated). Proved without --transform if no piece but the first is longer than everything before it, for archives whose members have times and different places (C140 is about the others). All folders of the archive are such hard links to themselves; that they are shown as folders is proved by following the lookups of all versions. Calls are made one after the other: nothing protects the archive object from extractions at the same time. py7zr itself is not modelled. |
| C212 | A mounted folder shows what is on the host at the time of each call, and its links lead where they lead there | Fuse/FolderMount | partial, violated in part | The code violates the claim: a link out of the mounted folder to another folder is shown as a folder, and the relative links in that folder count as links of the mount, so out/l can lead to another file than on the host (C212_violated). Proved for all paths that stay in the folder, also with .. and links in them (C212_walk_partial), and for links out of the folder at the end of a path (C212_outward, C212_read). The host is a model of path_resolution(7): at most 40 links, no permissions, no mount points. Within one call the host does not change, and the kernel caches nothing. Listings give the names; the attributes in them are those of C73. |
| C213 | Files in SQLAR archives that are mounted are read back | Fuse/SqlarMount | partial, violated in part | The code violates the claim: if only a file was added to the archive, but not its folder, the folder does not exist and the file cannot be reached (C213_violated, C213_alone_violated), a folder whose name has a pattern character such as [ shows other files than its own (C213_listing_violated), and versions folders and the versions of folders are listed as empty because list never gives None (C213_versions_violated). Reading behind the end of a stored file raises (C213_behind_violated); the kernel does not do it. Proved for tables with unique names that do not go up with .., whose folders are in the table (for listings), for folder names without pattern characters or archives with some name that is not normal. SQLite and rapidgzip are modelled by what they have to give; encrypted archives and Python before 3.11 are not modelled. |
| C214 | Files in RAR archives that are mounted are read back | Fuse/RarMount | partial, violated in part | The code violates the claim: hard links and copies are shown as symbolic links whose target is the path in the archive, so in folders they lead nowhere (C214_violated), although opening them directly would give the contents (C214_opened_violated); the attributes of Windows are used as if they were a Unix mode, so files have strange permissions and files and folders that are not indexed have another type (C214_windows_violated); and the versions folder is empty, with the only version at 0 (C214_versions_violated). The types in listings are those of C76, which is violated for folders without entries. Proved for archives whose paths are made of names and different, whose modes have no other type than that of the entry, and for hard links in the root folder. rarfile is modelled by what it has to give; encryption is not modelled. |
| C215 | A folder that is mounted with an index shows what is in it | Fuse/FolderIndex | partial, violated in part | The code violates the claim: whether an index is outdated is decided by the time and size of the mounted folder itself, which stay the same when something is added in a subfolder, so a later mount does not show it, although all mounts verify times (C215_violated); a mount without --verify-mtime stores the new time with the old index, so later mounts with --verify-mtime do not even see new files directly in the mounted folder (C215_unverified_violated); and sizes are those of the index, also when files grow while they are mounted (C215_size_violated). Proved: attributes, listings and what is missing are those of the host when the index was made, open and read lead to the host as it is now (C215_read, C215_gone), every mount shows one state as a whole (C215_snapshot), and the present one if the time of the mounted folder itself tells all states apart (C215_current_partial). Names that are not UTF-8 are the subject of C114. Changes of the host while the index is made, times before 1970 and parts of seconds are not modelled, and the index is not in the folder. |
| C216 | A mounted HTML file shows the files that are embedded in it | Fuse/HtmlMount | partial, violated in part | The code violates the claim: if one file was saved from an address that is a folder of the address of another one, then the earlier of the two is not shown: either its folder is shown as a file, so that it cannot be reached (C216_violated), or a folder is shown instead of it (C216_hidden_violated); and of two different files with the same address only the later one is shown under it (C216_same_violated). Proved for data URLs of ASCII that can be decoded, in attributes as in C136 and C137 or in text, such that no file is below another one; for the others see C136, C137, C138 and C170. The parser html.parser is represented by the candidates that it reports, and the libraries for decoding by functions. Files with carriage returns are not modelled. |
| C217 | Data URLs in the text of an HTML file are found at their places | Formats/HtmlPlaces | partial, violated in part | handle_data and the change of places are modelled in full; html.parser itself is not, and it is assumed to give the text as it is in the file (true for style sheets and scripts). Data URLs with white space after the parenthesis, which CSS allows, are not found (C217_violated). A data URL that overlaps with an earlier match of the same pattern is only covered as far as C217_css_partial and C217_quoted say. Inline style attributes are not looked at by handle_data. |
| C218 | A mounted OGG file shows its streams | Fuse/OggMount | partial, violated in part | The code violates the last sentence: if the last page is cut off, the file has the size of the complete page, but the rest cannot be read (C218_violated). Proved for files that consist of pages as in C63 with at most 26 further bytes. With --transform, the streams have to be at different places, none below another one; without it nothing is assumed (C218_default). Of json only lists of pairs of numbers are modelled, and a StenciledFile is represented by its contents (C01, C63). |
| C219 | A mounted PDF file shows what is attached to it | Fuse/PdfMount | partial, violated in part | The code violates the claim: documents with text but without attachments and images cannot be mounted (C219_violated), texts are not shown if there is an attachment (C219_text_violated), and empty attachments cannot be opened (C219_empty_violated). Proved for documents with an attachment of the whole document, whatever texts and images they have, and for documents with neither texts nor images; the attachments have to be at different places, none below another one. pypdf is represented by what it reads. |
| C220 | A folder that is mounted over itself is served without waiting for itself | Fuse/SelfBind | partial, violated in part | The code violates the claim: a link to a folder above is shown as that folder, and a lookup of the mount point in it never returns (C220_violated); neither does a lookup of a link that leads out of the folder and back in, or of a link to a file of the folder whose target has more '..' than the link is deep although it passes another link (C220_back_violated). Proved: whatever returns is right (C220_same, C220_same_contents); files, folders, other links and missing names return (C220_plain, C220_open, C220_list); links that lead out return exactly if they lead neither through the mount point nor back (C220_outward, C220_outward_covered, C220_open_outward). os.path.realpath is that of Python before 3.13; later versions ask for absolute paths, so that all links that lead out hang. Write overlays over the same folder are not modelled. |
| C221 | Indexes are kept, replaced or recreated if necessary, as the last argument says | Index/Recreate | partial, violated in part | The code violates the claim: an index that is mounted itself is opened without the option (it is given as readOnly, but the parameter is readOnlyIndex), so that an unfinished one is removed although --no-recreate-index was given (C221_violated, see also C122 and C173). Proved if this backend is not tried (C221_keep_partial), and for each other backend (C221_keep, C221_keep_exact, C221_recreate, C221_default, C221_default_made). What backends think of an index and the creation of an index are arbitrary functions (see C118 to C121 and C174 to C176); compressed indexes are not extracted (C120); what is written into an index after it was loaded is in other claims. |

## Axioms

`#print axioms` for all 986 theorems of `MANIFEST.json`. No other axioms occur.

### none: 20 theorems

* `Verif.Compose`: `C32_prefix_tags`, `C32_subvolumes_tags`
* `Verif.Detect`: `C58_position`
* `Verif.EmbeddedRows`: `C171_empty`
* `Verif.Fat`: `C96_violated`
* `Verif.Fuse.Stat`: `C113_violated`
* `Verif.Html`: `C139_partial`, `C139_other`, `C139_violated`
* `Verif.IndexLoad`: `C118_violated`, `C120_violated`, `C120_search_partial`, `C122_violated`
* `Verif.Overlay`: `C48_archive`
* `Verif.SeekPoints`: `C125_violated`, `C125_partial`
* `Verif.SevenZip`: `C77_violated`
* `Verif.Tar`: `C27_violated`
* `Verif.Unmount`: `C163_none`
* `Verif.Url`: `C154_ssh`

### propext: 71 theorems

* `Verif.Cache`: `C08_violated`, `C08_setdefault_violated`
* `Verif.Command`: `C83_file`, `C83_untouched`
* `Verif.Compose`: `C32_union_tags`, `C32_restored_partial`, `C32_violated`, `C32_files_violated`, `C90_answer`, `C144_found`
* `Verif.Compose.Attrs`: `C177_restored`, `C177_partial`, `C177_made`, `C177_violated`, `C177_inner_violated`
* `Verif.Compress`: `C55_zero`
* `Verif.Detect`: `C57_libarchive`
* `Verif.Ext4`: `C150_exists`
* `Verif.Fat`: `C97_violated`
* `Verif.FatChain`: `C68_violated`, `C70_violated`, `C70_range_violated`
* `Verif.FatNames`: `C101_violated`, `C102_violated`, `C103_violated`
* `Verif.FatSource`: `C117_first`
* `Verif.Fsspec`: `C148_lookup`, `C148_quoted`, `C148_no_prefix`, `C149_raised`
* `Verif.Fuse.SevenZipMount`: `C211_untimed`
* `Verif.Git`: `C75_found`, `C75_exact`, `C75_partial`
* `Verif.GitUrl`: `C152_partial`, `C152_folder`, `C152_file`, `C152_refused`
* `Verif.Index`: `C14_nonempty`
* `Verif.IndexLoad`: `C120_readOnly`, `C123_never`
* `Verif.LibarchiveRows`: `C166_mounted_partial`, `C166_empty`, `C166_delegate`
* `Verif.Options`: `C159_uses`, `C159_violated`, `C160_first`, `C160_none`, `C161_argument`
* `Verif.Passwords`: `C141_violated`, `C141_wrong_violated`, `C142_violated`, `C142_unused_violated`, `C143_refused`
* `Verif.Sources`: `C162_mount_point`
* `Verif.SquashFSRows`: `C168_owner`
* `Verif.Suffix`: `C84_negation`, `C84_category`
* `Verif.Tar`: `C23_violated`, `C24_violated`, `C28_violated`
* `Verif.Tar.Incremental`: `C108_all`, `C108_from_first`, `C108_ordinary`
* `Verif.Tar.Offsets`: `C104_not_octal`
* `Verif.Unmount`: `C163_others`, `C163_works_partial`
* `Verif.Url`: `C154_auth`, `C154_dropbox`, `C155_opened`, `C155_ssh`

### Quot.sound, propext: 179 theorems

* `Verif.Ar`: `C60_numbers`, `C60_magic`, `C61_other`, `C61_violated`
* `Verif.Asar`: `C62_tree_partial`
* `Verif.Cache`: `C09_never_stale`, `C09_setdefault`, `C11_violated`
* `Verif.Command`: `C83_partial`, `C83_echo`, `C83_blank`, `C83_errors`, `C83_reported`
* `Verif.Compose`: `C29_violated`, `C29_count`, `C30_violated`, `C31_names`, `C31_violated`, `C31_metadata_partial`, `C32_auto_tags`, `C32_files_partial`, `C36_chain_partial`, `C36_self`, `C36_target`, `C36_bounded`, `C37_above`, `C37_beside`, `C41_periodic`, `C42_init`, `C90_state_partial`, `C91_depth`, `C91_kept`, `C92_listing_partial`, `C92_names_partial`, `C144_hidden`, `C144_git`, `C144_repository`
* `Verif.Compose.Attrs`: `C177_mount_partial`
* `Verif.Compress`: `C55_order`, `C55_roundtrip`, `C55_progress`
* `Verif.Detect`: `C58_exact`, `C94_name_partial`, `C94_violated`, `C94_ends_violated`, `C95_signature_partial`, `C95_violated`, `C128_zlib`
* `Verif.Ext4`: `C150_lookup`, `C150_file`, `C150_missing`, `C151_partial`
* `Verif.Fat`: `C96_type_partial`, `C97_sector_partial`
* `Verif.FatDates`: `C71_order`, `C71_calendar`
* `Verif.FatImage`: `C195_unclean`
* `Verif.FatNames`: `C101_last_partial`, `C102_partial`
* `Verif.FatSource`: `C117_shown`
* `Verif.FatTable`: `C69_violated`
* `Verif.Folder`: `C73_stat_partial`, `C73_names`, `C73_always`, `C74_exact`, `C74_count`
* `Verif.Fsspec`: `C148_http_list`, `C148_http_lookup`, `C148_prefix`
* `Verif.Fuse.LibarchiveMount`: `C203_mounts`
* `Verif.Fuse.PdfMount`: `C219_mounts`
* `Verif.Fuse.SelfBind`: `C220_same`, `C220_open`, `C220_list`, `C220_same_contents`
* `Verif.Fuse.SevenZipMount`: `C211_mounts`
* `Verif.Fuse.SqlarMount`: `C213_modes`
* `Verif.Fuse.SquashMount`: `C202_mounts`
* `Verif.Fuse.TarLife`: `C207_windows_extend`
* `Verif.Git`: `C75_listing`
* `Verif.HtmlPlaces`: `C217_places`, `C217_bytes`
* `Verif.Index`: `C14_canonical`, `C14_fixed`, `C14_idempotent`, `C14_shape`, `C18_after_schema_partial`, `C18_complete_accepted`, `C18_append`, `C19_replaced`, `C20_list_partial`, `C20_get_partial`, `C20_others`
* `Verif.IndexLoad`: `C118_partial`, `C118_used`, `C119_verified_partial`, `C121_reported_partial`, `C121_stored_partial`, `C122_kept_partial`, `C123_violated`
* `Verif.Libarchive`: `C64_cache`
* `Verif.LibarchiveRows`: `C166_name`, `C166_violated`, `C167_name`
* `Verif.Names`: `C12_small_alphabet`
* `Verif.Options`: `C159_partial`, `C159_spaced`, `C161_backends`
* `Verif.Overlay`: `C43_missing`, `C44_symlink_partial`, `C44_link_partial`, `C44_folder_violated`, `C45_link_violated`, `C45_folder_violated`, `C46_read`, `C47_bytes`, `C48_history_partial`, `C48_result`, `C48_nothing`, `C48_violated`, `C48_write_violated`, `C200_violated`
* `Verif.Parallelization`: `C81_number`, `C81_list`, `C81_default`, `C81_errors_partial`
* `Verif.Passwords`: `C143_encrypted`
* `Verif.Pdf`: `C78_attachments_partial`, `C78_numbers`, `C78_opens`, `C78_hidden`, `C78_missing`, `C78_found`
* `Verif.Rar`: `C76_clean`
* `Verif.Recreate`: `C221_options`
* `Verif.SeekPoints`: `C124_roundtrip`, `C124_found_again`, `C124_own_format`, `C124_blocks`, `C125_methods_partial`
* `Verif.SharedFile`: `C100_path_partial`, `C100_newest_partial`, `C100_violated`, `C100_resumes`
* `Verif.Sources`: `C162_accepted`, `C162_repeated`, `C162_refused`
* `Verif.Sqlar`: `C79_children_partial`, `C79_lookup`, `C79_denormal_partial`, `C79_absent_violated`
* `Verif.SquashFS`: `C66_violated`, `C66_relative_violated`
* `Verif.SquashFSRows`: `C168_special`
* `Verif.Stencil`: `C01_negative_ranges_rejected`, `C02_violated`, `C04_lock_is_needed`, `C05_lambda_reader`, `C05_zero_file`, `C05_blob_file`, `C07_violated`, `C07_row_bound_partial`
* `Verif.Suffix`: `C84_folder`
* `Verif.Tar`: `C23_extended_partial`, `C23_some_index`, `C23_unchanged`, `C23_time`, `C23_shrunk`, `C23_grown`, `C24_none`, `C26_violated`
* `Verif.Tar.Attributes`: `C109_base64`, `C109_quote`, `C109_rows`, `C110_violated`
* `Verif.Tar.Offsets`: `C107_decimal`
* `Verif.Unmount`: `C163_status`, `C163_list_partial`
* `Verif.Zip`: `C132_dos`

### Classical.choice, Quot.sound, propext: 716 theorems

* `Verif.Adaptor`: `C145_bare`, `C145_character`, `C145_mode`, `C145_violated`, `C146_partial`, `C146_bare_names`, `C146_names`, `C146_missing`, `C146_missing_names`, `C146_type`, `C146_violated`, `C147_object`, `C147_remote`, `C147_partial`, `C147_violated`
* `Verif.Ar`: `C60_members`, `C60_truncated`, `C61_first_partial`, `C61_thin`, `C61_thin_late`
* `Verif.Asar`: `C62_header`, `C62_once`, `C62_violated`
* `Verif.Cache`: `C08_recency_partial`, `C10_block_reads`, `C11_at_end_partial`
* `Verif.Command`: `C83_violated`
* `Verif.Compose`: `C29_versions_partial`, `C29_last_wins_partial`, `C30_invisible_partial`, `C32_versions_tags`, `C33_block_size`, `C33_name_length`, `C33_other`, `C34_version`, `C34_list`, `C34_other`, `C34_agrees`, `C34_missing`, `C34_violated`, `C34_found_partial`, `C35_violated`, `C35_parent_partial`, `C36_violated`, `C37_below_partial`, `C37_violated`, `C38_refines`, `C38_below`, `C38_above`, `C38_beside`, `C39_open_partial`, `C39_nested_fails`, `C39_violated`, `C40_longest`, `C40_serves`, `C41_mount_point`, `C41_violated`, `C41_reachable_partial`, `C42_tree`, `C42_open`, `C42_handles`, `C90_violated`, `C91_off`, `C92_inside_partial`, `C92_violated`, `C93_lazy`, `C93_lazy_is_eager`, `C144_partial`, `C144_violated`
* `Verif.Compose.Split`: `C178_partial`, `C178_violated`, `C178_right_violated`, `C178_inside_partial`, `C178_kept`, `C178_inside_violated`, `C179_partial`, `C179_violated`, `C179_lost_violated`, `C180_partial`, `C180_only`, `C180_violated`
* `Verif.Compress`: `C55_terminates`
* `Verif.Control`: `C156_inside_partial`, `C156_others_stay`, `C156_never_started`, `C156_arguments`, `C156_violated`, `C157_relative_partial`, `C157_only`, `C157_absolute`, `C157_violated`, `C157_refused`, `C157_started`
* `Verif.Depth`: `C158_plain_partial`, `C158_compressed_partial`, `C158_compressed_less`, `C158_negative`, `C158_zero`, `C158_not_deeper`, `C158_violated`, `C158_compressed_violated`
* `Verif.Detect`: `C56_first`, `C57_first_partial`, `C59_zstandard`, `C59_lz4`, `C98_first_partial`, `C98_violated`, `C126_violated`, `C126_partial`, `C126_libarchive_violated`, `C126_raw`, `C127_choice`
* `Verif.Detect.Extension`: `C208_extension`, `C208_libarchive`, `C208_preferred`, `C208_tar`, `C208_nameless`
* `Verif.Detect.Threads`: `C206_violated`, `C206_xz_alone`, `C206_partial`
* `Verif.Direct`: `C173_violated`, `C173_removed`, `C173_partial`, `C173_all_partial`, `C173_object`, `C173_backends`
* `Verif.EmbeddedRows`: `C169_extension`, `C169_once`, `C169_hash`, `C169_shown`, `C170_partial`, `C170_fails`, `C170_violated`, `C171_partial`, `C171_violated`, `C172_candidates`
* `Verif.Ext4`: `C150_partial`, `C150_violated`, `C151_violated`
* `Verif.Fat`: `C57_violated`
* `Verif.FatChain`: `C68_file_partial`, `C68_open_partial`, `C70_chain`, `C70_stopped`, `C70_bad`, `C70_ends_partial`
* `Verif.FatDates`: `C71_date`, `C71_time`, `C71_even`, `C71_total`
* `Verif.FatImage`: `C195_violated`, `C195_missing`, `C195_folder`, `C195_file_partial`, `C195_mounts`
* `Verif.FatNames`: `C72_sum`, `C72_name`, `C72_directory`, `C72_checksum`, `C103_partial`
* `Verif.FatSource`: `C115_found`, `C115_listed`, `C115_folder`, `C115_open`, `C116_violated`, `C116_exists_partial`
* `Verif.FatTable`: `C69_wide_partial`, `C69_odd_partial`, `C69_even`
* `Verif.Folder`: `C73_violated`, `C74_lookup`, `C74_absolute`
* `Verif.Fsspec`: `C148_list`, `C149_partial`, `C149_violated`, `C149_file_violated`
* `Verif.Fuse`: `C51_unique`, `C51_readonly`, `C51_session_partial`, `C51_violated`, `C53_unchanged_partial`, `C53_refused_partial`, `C53_overlay`, `C53_create`, `C54_names_partial`, `C54_nameless`, `C54_violated`
* `Verif.Fuse.ArMount`: `C196_mounts`, `C196_read`, `C196_attributes`, `C196_folder`, `C196_absent`, `C196_list`, `C196_nodup`, `C196_encoding`
* `Verif.Fuse.AsarMount`: `C197_mounts`, `C197_read`, `C197_file`, `C197_folder`, `C197_absent`, `C197_list`, `C197_nodup`, `C197_packed`
* `Verif.Fuse.FolderIndex`: `C215_attributes`, `C215_absent`, `C215_list`, `C215_read`, `C215_gone`, `C215_irregular`, `C215_first`, `C215_snapshot`, `C215_current_partial`, `C215_violated`, `C215_unverified_violated`, `C215_size_violated`
* `Verif.Fuse.FolderMount`: `C212_read`, `C212_attributes`, `C212_outward`, `C212_absent`, `C212_list`, `C212_version`, `C212_view`, `C212_walk_partial`, `C212_violated`
* `Verif.Fuse.HtmlMount`: `C216_mounts`, `C216_read`, `C216_attributes`, `C216_folder`, `C216_absent`, `C216_list`, `C216_hash`, `C216_address`, `C216_skipped`, `C216_undecodable`, `C216_violated`, `C216_hidden_violated`, `C216_same_violated`
* `Verif.Fuse.LibarchiveMount`: `C203_read_partial`, `C203_refused`, `C203_attributes_partial`, `C203_link`, `C203_folder`, `C203_absent`, `C203_list`, `C203_nodup`, `C203_violated`
* `Verif.Fuse.OggMount`: `C218_ranges`, `C218_mounts`, `C218_read`, `C218_attributes`, `C218_absent`, `C218_list`, `C218_default`, `C218_refused`, `C218_violated`
* `Verif.Fuse.OldVersions`: `C204_read_partial`, `C204_attributes_partial`, `C204_list`, `C204_violated`
* `Verif.Fuse.OlderMembers`: `C204_ar_read`, `C204_ar_attributes`, `C204_ar_list`, `C204_zip_read`, `C204_zip_attributes`, `C204_zip_list`, `C204_libarchive_read_partial`, `C204_libarchive_list`
* `Verif.Fuse.PdfMount`: `C219_read`, `C219_attributes`, `C219_absent`, `C219_list`, `C219_empty_violated`, `C219_violated`, `C219_text_violated`
* `Verif.Fuse.RarMount`: `C214_read`, `C214_attributes`, `C214_implied`, `C214_absent`, `C214_list`, `C214_modes`, `C214_links_partial`, `C214_violated`, `C214_opened_violated`, `C214_windows_violated`, `C214_versions_violated`
* `Verif.Fuse.SelfBind`: `C220_plain`, `C220_outward`, `C220_outward_covered`, `C220_open_outward`, `C220_violated`, `C220_back_violated`
* `Verif.Fuse.SevenZipMount`: `C211_read_partial`, `C211_attributes`, `C211_folder`, `C211_absent`, `C211_list`, `C211_once`, `C211_violated`, `C211_transform_violated`
* `Verif.Fuse.SqlarMount`: `C213_read`, `C213_attributes`, `C213_folder`, `C213_absent`, `C213_list_partial`, `C213_version`, `C213_violated`, `C213_alone_violated`, `C213_listing_violated`, `C213_versions_violated`, `C213_behind_violated`
* `Verif.Fuse.SquashMount`: `C202_read`, `C202_attributes`, `C202_link`, `C202_absent`, `C202_list`, `C202_nodup`, `C202_whole`
* `Verif.Fuse.Stat`: `C111_violated`, `C111_ignored`, `C111_same_partial`, `C112_violated`, `C112_exact_partial`, `C113_time_partial`, `C113_blocks`
* `Verif.Fuse.TarFiles`: `C190_read`, `C190_attributes`, `C190_list`, `C190_others`
* `Verif.Fuse.TarLife`: `C207_history_partial`, `C207_unloaded`, `C207_rejected`, `C207_unkilled_partial`, `C207_windows`, `C207_unnoticed_violated`, `C207_extends`, `C207_violated`
* `Verif.Fuse.TarMount`: `C181_read`, `C181_attributes`, `C181_folder`, `C181_absent`, `C181_root`, `C182_list`, `C182_nodup`
* `Verif.Fuse.TarNested`: `C198_read_partial`, `C198_attributes_partial`, `C198_list`, `C198_others`, `C198_violated`
* `Verif.Fuse.TarOver`: `C205_split_same`, `C205_blocks_same`, `C205_split_read`, `C205_blocks_read`, `C205_split_version`
* `Verif.Fuse.ThinMount`: `C199_mounts`, `C199_link_partial`, `C199_list_partial`, `C199_absent`, `C199_violated`
* `Verif.Fuse.UnionMount`: `C209_read_partial`, `C209_attributes_partial`, `C209_folder`, `C209_absent`, `C209_root`, `C209_list`, `C209_violated`, `C209_dot_shown`, `C209_dot_violated`, `C209_versions_partial`, `C209_versions_list`
* `Verif.Fuse.ZipMount`: `C201_mounts`, `C201_read`, `C201_refused`, `C201_attributes`, `C201_link`, `C201_folder`, `C201_absent`, `C201_list`, `C201_nodup`, `C201_plain`, `C201_encrypted`, `C201_violated`
* `Verif.Git`: `C75_violated`
* `Verif.GitUrl`: `C152_violated`, `C152_url`, `C153_partial`, `C153_reference`, `C153_option`, `C153_detached`, `C153_refused`, `C153_violated`, `C153_time_violated`
* `Verif.Hashing`: `C80_crc32`, `C80_hashes`, `C80_digits`, `C80_movie_partial`, `C80_movie_small`, `C80_movie_violated`
* `Verif.Html`: `C136_partial`, `C136_violated`, `C136_other_violated`, `C137_read`, `C137_partial`, `C137_violated`, `C138_partial`, `C138_base64`, `C138_other`, `C138_violated`
* `Verif.HtmlPlaces`: `C217_sound`, `C217_written`, `C217_once`, `C217_css_partial`, `C217_quoted`, `C217_plain_partial`, `C217_beyond`, `C217_violated`
* `Verif.Index`: `C14_slashes`, `C14_query`, `C14_query_above_root`, `C15_lookup`, `C15_versions`, `C15_root`, `C16_list_lookup`, `C16_listed_names`, `C16_none`, `C17_violated`, `C17_reachable_partial`, `C17_entry_found`, `C17_directory_version_partial`, `C18_violated`, `C19_violated`, `C19_order_partial`, `C20_violated`, `C20_root`, `C21_resume`, `C21_complete`, `C21_violated`, `C21_reads_partial`, `C21_regular`, `C22_removed`, `C22_mismatch`, `C22_cleared`
* `Verif.IndexLoad`: `C119_violated`, `C121_violated`, `C123_tuple_partial`, `C123_newer_partial`
* `Verif.IndexPaths`: `C85_order`, `C85_explicit`, `C85_beside`, `C85_outside_partial`, `C85_all_inside`, `C85_kept`, `C85_default`, `C85_relative`, `C85_violated`, `C85_memory_violated`, `C85_order_violated`, `C85_url_violated`
* `Verif.IndexedFolder`: `C114_found_partial`, `C114_absent_partial`, `C114_listed_partial`, `C114_order`, `C114_sorted`, `C114_escape`, `C114_violated`
* `Verif.InputFile`: `C183_criterion`, `C183_partial`, `C183_violated`, `C183_only`, `C183_url`, `C183_url_refused`, `C183_folder`, `C183_absent`, `C183_source`, `C183_builtin`, `C183_libarchive`, `C183_sqlar`, `C184_never`, `C184_violated`, `C184_partial`, `C185_never`, `C185_violated`
* `Verif.Libarchive`: `C64_within_partial`, `C64_violated`, `C65_violated`, `C65_always`
* `Verif.LibarchiveRows`: `C165_partial`, `C165_newest`, `C165_contents_partial`, `C165_violated`, `C165_hard_link_target`, `C165_target_violated`, `C165_special`, `C167_found`
* `Verif.Loaded`: `C187_partial`, `C187_tar`, `C187_violated`, `C188_unchanged`, `C188_hashes_partial`, `C188_tar_partial`, `C188_seek_violated`, `C188_violated`, `C189_lost`, `C189_partial`, `C189_again`, `C189_violated`
* `Verif.MountPoint`: `C82_differs`, `C82_usable`, `C82_url`, `C82_partial`, `C82_violated`, `C82_empty_violated`
* `Verif.Names`: `C12_positional`, `C12_injective`, `C12_order`, `C13_violated`, `C13_gap_free_partial`, `C13_detected`, `C13_numbered`, `C13_other`, `C13_terminates`, `C86_violated`, `C86_included_partial`, `C87_violated`, `C87_parts_listed_partial`
* `Verif.Ogg`: `C63_streams`, `C63_reads`, `C63_names`, `C63_filename`, `C99_violated`, `C99_first_partial`
* `Verif.Options`: `C160_passwords`, `C160_trailing`, `C161_default`
* `Verif.Overlay`: `C43_history_partial`, `C43_not_empty_partial`, `C43_violated`, `C44_mknod_partial`, `C44_violated`, `C44_node_violated`, `C45_rename_partial`, `C45_violated`, `C46_history_partial`, `C46_write`, `C46_bytes`, `C47_truncate_partial`, `C47_zeros`, `C47_violated`, `C49_database`, `C49_files_partial`, `C49_folders_partial`, `C49_violated`, `C49_link_violated`, `C49_folder_violated`, `C49_replaced_violated`, `C50_list_partial`, `C50_others_partial`, `C50_violated`, `C50_deleted_violated`, `C52_listing_partial`, `C52_listed`, `C52_violated`, `C200_move_partial`, `C200_paths_partial`, `C200_attributes_partial`, `C200_part_violated`, `C200_failed_violated`, `C200_hidden_violated`, `C200_owner_violated`
* `Verif.Overlay.CommitTar`: `C194_files_partial`, `C194_folders_partial`, `C194_violated`
* `Verif.Overlay.Controlled`: `C210_refused`, `C210_elsewhere`, `C210_kept_partial`, `C210_folder_partial`, `C210_violated`, `C210_lost_violated`
* `Verif.Overlay.OverTar`: `C193_history_partial`, `C193_violated`
* `Verif.Parallelization`: `C81_violated`
* `Verif.Passwords`: `C141_partial`, `C141_refused_partial`, `C141_single`, `C142_partial`, `C142_refused_partial`, `C143_plain`
* `Verif.Pdf`: `C78_first`, `C78_violated`, `C78_images_violated`
* `Verif.Random`: `C186_range`, `C186_few`, `C186_text`, `C186_progression`, `C186_spread`, `C186_order`, `C186_three`
* `Verif.Rar`: `C76_last`, `C76_names`, `C76_lookup`, `C76_consistent`, `C76_agree_partial`, `C76_violated`, `C76_order_violated`, `C76_absolute_violated`
* `Verif.Recreate`: `C221_keep`, `C221_keep_exact`, `C221_keep_partial`, `C221_recreate`, `C221_default`, `C221_default_made`, `C221_violated`
* `Verif.SevenZip`: `C77_exact`, `C77_partial`
* `Verif.SevenZipSource`: `C140_partial`, `C140_found`, `C140_violated`, `C140_twice_violated`
* `Verif.Sources`: `C164_options`, `C164_added`
* `Verif.Sqlar`: `C79_violated`, `C79_foreign_violated`
* `Verif.SquashFS`: `C66_positions_partial`, `C66_bytes_partial`, `C67_roundtrip`, `C67_injective`
* `Verif.SquashFSRows`: `C168_partial`, `C168_transform`, `C168_only`, `C168_violated`
* `Verif.Stencil`: `C01_stencil_reads_are_slices`, `C02_recovery_partial`, `C03_joined_history`, `C03_readall`, `C04_concurrent_reads`, `C04_no_deadlock`, `C06_blob_roundtrip`
* `Verif.Suffix`: `C84_unchanged`, `C84_stripped`, `C84_longest_partial`, `C84_violated`
* `Verif.Tar`: `C24_boundary_partial`, `C25_stripped`, `C25_nested`, `C25_open`, `C25_rows`, `C25_members`, `C26_contents`, `C26_accepts_partial`, `C27_inside_partial`, `C27_prefix`, `C28_type_partial`, `C28_links`, `C88_violated`, `C88_extend_partial`, `C89_violated`, `C89_file_partial`, `C129_accepted_partial`, `C129_deep_violated`, `C129_violated`, `C130_sound`, `C131_violated`, `C131_partial`
* `Verif.Tar.Attributes`: `C109_attributes`, `C110_values`, `C110_indexed_partial`
* `Verif.Tar.Damage`: `C191_detected_partial`, `C191_before_partial`, `C191_violated`, `C192_headers_partial`, `C192_data_partial`, `C192_violated`
* `Verif.Tar.Incremental`: `C108_time_partial`, `C108_empty_partial`, `C108_path_partial`, `C108_long_partial`, `C108_violated`
* `Verif.Tar.Offsets`: `C104_hangs`, `C104_violated`, `C104_ends_partial`, `C105_violated`, `C105_recognised_partial`, `C105_sound`, `C106_offsets`, `C106_order`, `C107_size`
* `Verif.Unmount`: `C163_violated`, `C163_debug_violated`
* `Verif.Url`: `C154_webdav`, `C155_protocol`, `C155_library`
* `Verif.Writable`: `C174_small`, `C174_partial`, `C174_no_places`, `C174_fails`, `C174_violated`, `C175_partial`, `C175_error`, `C175_violated`, `C176_partial`, `C176_written`, `C176_violated`
* `Verif.Zip`: `C132_partial`, `C132_types`, `C132_violated`, `C133_time`, `C133_partial`, `C133_violated`, `C133_first_violated`, `C133_link_violated`, `C134_partial`, `C134_found`, `C134_refused`, `C134_violated`, `C135_open`, `C135_reach`, `C135_only`

## Modelled and not modelled code

For every Python file: the functions that a definition of the model cites, with the modules, and the functions that no definition
cites. A function counts as modelled if a definition cites some of its lines; the comment at the definition says what was simplified
or left out. Tests, benchmarks and packaging scripts are left out.

* `core/ratarmountcore/BlockParallelReaders.py`
  * modelled (Cache/BlockReader, Fuse/TarOver): `BlockParallelReader.__init__`, `BlockParallelReader.join_threads`, `BlockParallelReader._get_pool`, `BlockParallelReader._init_worker`, `BlockParallelReader._find_block`, `BlockParallelReader._block_size`, `BlockParallelReader.__enter__`, `BlockParallelReader.__exit__`, `BlockParallelReader.close`, `BlockParallelReader.fileno`, `BlockParallelReader.seekable`, `BlockParallelReader.readable`, `BlockParallelReader.writable`, `BlockParallelReader.seek`, `BlockParallelReader.tell`, `BlockParallelReader._read`
  * not modelled: `ParallelXZReader.__init__`, `ParallelXZReader._open_files`, `ParallelXZReader._init_worker2`, `ParallelXZReader._try_open_global_file`, `ParallelXZReader._decode_block`, `ParallelXZReader.read`, `ParallelXZReader.find_block`, `ParallelZstdReader.__init__`, `ParallelZstdReader._decode_block`, `ParallelZstdReader.read`
* `core/ratarmountcore/ProgressBar.py`
  * not modelled: `_logging_uses_rich`, `ProgressBar.__init__`, `ProgressBar.__enter__`, `ProgressBar.__exit__`, `ProgressBar.__del__`, `ProgressBar.start`, `ProgressBar.stop`, `ProgressBar.update`
* `core/ratarmountcore/SQLiteBlobFile.py`
  * modelled (Stencil/Blobs, Stencil/Joined): `SQLiteBlobFile.__init__`, `SQLiteBlobFile.read_blob_part`, `SQLiteBlobsFile.__init__`, `WriteSQLiteBlobs.__init__`, `WriteSQLiteBlobs._flush_blob`, `WriteSQLiteBlobs.__exit__`, `WriteSQLiteBlobs.close`, `WriteSQLiteBlobs.write`, `WriteSQLiteBlobs.seek`, `WriteSQLiteBlobs.tell`
  * not modelled: `WriteSQLiteBlobs.__enter__`, `WriteSQLiteBlobs.fileno`, `WriteSQLiteBlobs.seekable`, `WriteSQLiteBlobs.readable`, `WriteSQLiteBlobs.writable`
* `core/ratarmountcore/SQLiteIndex.py`
  * modelled (Cli/IndexPaths, Compose/LayerXattrs, Compress/SeekPoints, Formats/IndexedFolder, Fuse/FolderIndex, Fuse/IndexMount, Fuse/TarLife, Fuse/TarMount, Fuse/TarNested, Fuse/TarTable, Index/Build, Index/Crash, Index/Direct, Index/Load, Index/Loaded, Index/Normpath, Index/Query, Index/Recreate, Index/Reuse, Index/Rows, Index/Writable, Index/Xattrs, Overlay/Commit, Tar/Append): `_to_version_tuple`, `SQLiteIndex.__init__`, `SQLiteIndex.get_possible_index_file_paths`, `SQLiteIndex.clear_indexes`, `SQLiteIndex.open_existing`, `SQLiteIndex.open_writable`, `SQLiteIndex.__enter__`, `SQLiteIndex.__del__`, `SQLiteIndex.__exit__`, `SQLiteIndex.close`, `SQLiteIndex.get_connection`, `SQLiteIndex._store_versions_metadata`, `SQLiteIndex._store_file_metadata`, `SQLiteIndex.store_metadata_key_value`, `SQLiteIndex.store_metadata`, `SQLiteIndex.drop_metadata`, `SQLiteIndex.try_to_open_first_file`, `SQLiteIndex.check_archive_stats`, `SQLiteIndex.check_metadata_arguments`, `SQLiteIndex.check_metadata_backend`, `SQLiteIndex._path_can_be_used_for_sqlite`, `SQLiteIndex._open_sql_db`, `SQLiteIndex._create_sql_db`, `SQLiteIndex.reload_index_read_only`, `SQLiteIndex._reload_index_on_disk`, `SQLiteIndex._finalize_files_table`, `SQLiteIndex.finalize`, `SQLiteIndex.create_index_timed`, `SQLiteIndex.finalize_index`, `SQLiteIndex.file_count`, `SQLiteIndex._row_to_file_info`, `SQLiteIndex.normpath`, `SQLiteIndex._query_normpath`, `SQLiteIndex.list`, `SQLiteIndex.list_mode`, `SQLiteIndex.versions`, `SQLiteIndex.lookup`, `SQLiteIndex.setxattrs`, `SQLiteIndex.list_xattr`, `SQLiteIndex.get_xattr`, `SQLiteIndex._try_add_parent_folders`, `SQLiteIndex.set_file_infos`, `SQLiteIndex._escape_invalid_characters`, `SQLiteIndex.set_file_info`, `SQLiteIndex.index_is_loaded`, `SQLiteIndex._load_index`, `SQLiteIndex._try_load_index`, `SQLiteIndex.clear_compression_offsets`, `SQLiteIndex.synchronize_compression_offsets`, `SQLiteIndex._load_gzip_index`, `SQLiteIndex._store_gzip_index`
  * not modelled: `get_sqlite_tables`, `_get_libsqlite_version`, `SQLiteIndex.get_index_version`, `SQLiteIndex._set_index_file_path`, `SQLiteIndex.get_index_userdata`
* `core/ratarmountcore/SQLiteIndexedTarFsspec.py`
  * modelled (Compose/Adaptor): `MountSourceFileSystem._stripProtocol`, `MountSourceFileSystem._file_info_to_dict`, `MountSourceFileSystem.ls`, `MountSourceFileSystem.info`, `MountSourceFileSystem._open`, `SQLiteIndexedTarFileSystem.__init__`
  * not modelled: `MountSourceFileSystem.__init__`
* `core/ratarmountcore/StenciledFile.py`
  * modelled (Compose/SplitMount, Fuse/SqlarMount, Fuse/TarOver, Stencil/Blobs, Stencil/Concurrent, Stencil/Joined, Stencil/Model): `RawStenciledFile.__init__`, `RawStenciledFile._find_stencil`, `RawStenciledFile.__enter__`, `RawStenciledFile.__exit__`, `RawStenciledFile.seekable`, `RawStenciledFile.readable`, `RawStenciledFile.readinto`, `RawStenciledFile._read1_unlocked`, `RawStenciledFile.read`, `RawStenciledFile.seek`, `RawStenciledFile.tell`, `RawJoinedFileFromFactory.__init__`, `RawJoinedFileFromFactory._find_stencil`, `RawJoinedFileFromFactory._get_file_object`, `RawJoinedFileFromFactory.__enter__`, `RawJoinedFileFromFactory.__exit__`, `RawJoinedFileFromFactory._close_fileobj`, `RawJoinedFileFromFactory.close`, `RawJoinedFileFromFactory.seekable`, `RawJoinedFileFromFactory.readable`, `RawJoinedFileFromFactory.readinto`, `RawJoinedFileFromFactory.read`, `RawJoinedFileFromFactory.seek`, `RawJoinedFileFromFactory.tell`, `JoinedFile.__init__`, `JoinedFileFromFactory.__init__`, `LambdaReaderFile.__init__`, `LambdaReaderFile.__enter__`, `LambdaReaderFile.__exit__`, `LambdaReaderFile.seekable`, `LambdaReaderFile.readable`, `LambdaReaderFile.readinto`, `LambdaReaderFile.read`, `LambdaReaderFile.seek`, `LambdaReaderFile.tell`, `ZeroFile.__init__`
  * not modelled: `StenciledFile.__init__`
* `core/ratarmountcore/_external/pyfatfs/BootSectorHeader.py`
  * modelled (Fat/Header): `BootSectorHeader.parse_header`
  * not modelled: `BootSectorHeader.__init__`, `BootSectorHeader.__bytes__`, `BootSectorHeader.__len__`
* `core/ratarmountcore/_external/pyfatfs/DosDateTime.py`
  * modelled (Fat/Dates): `DosDateTime.serialize_date`, `DosDateTime.serialize_time`, `DosDateTime.deserialize_date`, `DosDateTime.deserialize_time`
  * not modelled: `_convert_to_dos_date`
* `core/ratarmountcore/_external/pyfatfs/EightDotThree.py`
  * modelled (Fat/Image, Fat/Names, Fat/Source): `EightDotThree.__str__`, `EightDotThree.__bytes__`, `EightDotThree.get_unpadded_filename`, `EightDotThree.set_byte_name`, `EightDotThree.set_str_name`, `EightDotThree.checksum`
  * not modelled: `EightDotThree.__init__`, `EightDotThree.__raise_8dot3_nonconformant`, `EightDotThree.__set_name`, `EightDotThree.__check_characters`, `EightDotThree.is_8dot3_conform`, `EightDotThree._pad_8dot3_name`, `EightDotThree.make_8dot3_name`
* `core/ratarmountcore/_external/pyfatfs/FATDirectoryEntry.py`
  * modelled (Fat/Chain, Fat/Dates, Fat/Image, Fat/Mounted, Fat/Names, Fat/Source): `FATDirectoryEntry.__init__`, `FATDirectoryEntry.get_ctime`, `FATDirectoryEntry.get_mtime`, `FATDirectoryEntry.get_atime`, `FATDirectoryEntry.__combine_dosdatetime`, `FATDirectoryEntry.get_checksum`, `FATDirectoryEntry.set_lfn_entry`, `FATDirectoryEntry.set_size`, `FATDirectoryEntry.get_cluster`, `FATDirectoryEntry.is_special`, `FATDirectoryEntry.is_read_only`, `FATDirectoryEntry.is_hidden`, `FATDirectoryEntry.is_system`, `FATDirectoryEntry.is_volume_id`, `FATDirectoryEntry._verify_is_directory`, `FATDirectoryEntry.is_directory`, `FATDirectoryEntry.is_archive`, `FATDirectoryEntry.is_empty`, `FATDirectoryEntry.__populate_dirs`, `FATDirectoryEntry._get_entries_raw`, `FATDirectoryEntry.get_entries`, `FATDirectoryEntry._search_entry`, `FATDirectoryEntry.get_entry`, `FATDirectoryEntry.__repr__`, `FATDirectoryEntry.get_short_name`, `FATDirectoryEntry.get_long_name`, `FATLongDirectoryEntry.__init__`, `FATLongDirectoryEntry.get_entries`, `FATLongDirectoryEntry.mark_empty`, `FATLongDirectoryEntry.__bytes__`, `FATLongDirectoryEntry.__str__`, `FATLongDirectoryEntry.is_lfn_entry`, `FATLongDirectoryEntry.add_lfn_entry`, `FATLongDirectoryEntry.is_lfn_entry_complete`
  * not modelled: `FATDirectoryEntry._encoding`, `FATDirectoryEntry.filesize`, `FATDirectoryEntry.filesize`, `FATDirectoryEntry.new`, `FATDirectoryEntry.get_entry_size`, `FATDirectoryEntry.get_size`, `FATDirectoryEntry.set_cluster`, `FATDirectoryEntry.__bytes__`, `FATDirectoryEntry._add_parent`, `FATDirectoryEntry._get_parent_dir`, `FATDirectoryEntry.get_full_path`, `FATDirectoryEntry.get_parent_dir`, `FATDirectoryEntry.walk`, `FATDirectoryEntry.add_subdirectory`, `FATDirectoryEntry.mark_empty`, `FATDirectoryEntry.remove_dir_entry`
* `core/ratarmountcore/_external/pyfatfs/FSInfo.py`
  * not modelled: `FSInfo.__init__`, `FSInfo.__bytes__`, `FSInfo.__len__`, `FSInfo.parse_header`
* `core/ratarmountcore/_external/pyfatfs/FatIO.py`
  * modelled (Fat/Chain, Fat/Image, Fat/Source): `FatIO.__init__`, `FatIO.__repr__`, `FatIO.seek`, `FatIO.seekable`, `FatIO.close`, `FatIO.readable`, `FatIO.read`, `FatIO.readinto`
  * not modelled: `DefaultModeReadOnly.__init__`
* `core/ratarmountcore/_external/pyfatfs/PyFat.py`
  * modelled (Fat/Chain, Fat/Demo, Fat/Format, Fat/Header, Fat/Image, Fat/Names, Fat/Source, Fat/Table, Fat/Tree): `PyFat.__init__`, `PyFat.read_cluster_contents`, `PyFat.__get_clean_shutdown_bitmask`, `PyFat._is_dirty`, `PyFat.set_fp`, `PyFat._get_total_sectors`, `PyFat._get_fat_size_count`, `PyFat._parse_fat`, `PyFat.__bytes__`, `PyFat._fat12_parse_root_dir`, `PyFat._fat32_parse_root_dir`, `PyFat.parse_root_dir`, `PyFat.parse_lfn_entry`, `PyFat.__parse_dir_entry`, `PyFat.parse_dir_entries_in_address`, `PyFat.parse_dir_entries_in_cluster_chain`, `PyFat.get_data_cluster_address`, `PyFat.get_cluster_chain`, `PyFat.__determine_fat_type`, `PyFat.parse_header`, `PyFat.__verify_bpb_header`
  * not modelled: `PyFat.__set_fp`, `PyFat.__seek`, `PyFat.open`, `PyFat.get_fs_location`, `PyFat.calc_num_clusters`, `PyFat.close`, `PyFat.__del__`, `PyFat.open_fs`
* `core/ratarmountcore/_external/pyfatfs/__init__.py`
  * not modelled: `_init_check`
* `core/ratarmountcore/_external/pyfatfs/_exceptions.py`
  * not modelled: `PyFATException.__init__`, `NotAFatEntryException.__init__`
* `core/ratarmountcore/compressions.py`
  * modelled (Cli/Suffix, Compose/SplitMount, Compress/Zstd, Detect/Backends, Detect/Gzip, Detect/Open, Detect/Threads, Names/SplitFile): `find_available_backend`, `compile_suffix_rules`, `strip_suffix`, `has_matching_alphabets`, `check_for_sequence`, `check_for_split_file_in`, `_compress_zstd`, `compress_zstd`, `get_gzip_info`, `detect_compression`, `use_rapidgzip`, `open_compressed_file`
  * not modelled: `check_for_split_file_in_folder`
* `core/ratarmountcore/formats.py`
  * modelled (Detect/Extension, Detect/Formats, Detect/Frames, Detect/Open, Detect/Signatures, Formats/Asar, Fuse/OggMount): `is_html_file`, `is_tar`, `find_asar_header`, `is_asar`, `is_squashfs`, `find_squashfs_offset`, `_check_zlib_header`, `_check_lz4_header`, `_check_zstandard_header`, `recompute_cached_magic_bytes`, `might_be_format`, `detect_formats`, `replace_format_check`
  * not modelled: `is_avi`, `_is_cpio`, `_is_iso9660`, `_check_deflate`, `_is_bzip2`, `_check_encrypted_sqlar`, `_get_extensions`
* `core/ratarmountcore/hashing.py`
  * modelled (Formats/Hashing, Index/Hashes): `_CRC32Hasher.__init__`, `_CRC32Hasher.update`, `_CRC32Hasher.hexdigest`, `_build_hash_registry`, `_zero_pad`, `_smplayer_hash_accumulate`, `smplayer_hash`, `compute_hashes`
* `core/ratarmountcore/mountsource/MountSource.py`
  * modelled (Compose/LayerXattrs, Compose/Layers, Compose/Source, Compose/SplitMount, Compose/Statfs, Fuse/IndexMount, Fuse/SqlarMount, Fuse/TarMount, Index/Query, Overlay/Model, Tar/Sparse): `MountSource.list`, `MountSource.list_mode`, `MountSource.lookup`, `MountSource.open`, `MountSource.statfs`, `MountSource.versions`, `MountSource.read`, `MountSource.is_immutable`, `MountSource.get_mount_source`, `MountSource.exists`, `MountSource.is_dir`, `MountSource.list_xattr`, `MountSource.get_xattr`, `MountSource.__enter__`, `MountSource.__exit__`, `create_root_file_info`, `merge_statfs`
  * not modelled: `FileInfo.clone`
* `core/ratarmountcore/mountsource/SQLiteIndexMountSource.py`
  * modelled (Fuse/FolderIndex, Fuse/IndexMount, Fuse/LibMount, Fuse/TarLife, Fuse/TarMount, Fuse/TarTable, Index/Direct, Index/Hashes, Index/Loaded, Index/Recreate, Index/Reuse): `SQLiteIndexMountSource.__init__`, `SQLiteIndexMountSource._store_default_metadata`, `SQLiteIndexMountSource._check_metadata_dummy`, `SQLiteIndexMountSource._check_metadata`, `SQLiteIndexMountSource._compute_and_store_hashes`, `SQLiteIndexMountSource._finalize_index`, `SQLiteIndexMountSource._quick_check_file`, `SQLiteIndexMountSource.lookup`, `SQLiteIndexMountSource.open`, `SQLiteIndexMountSource.list`, `SQLiteIndexMountSource.list_mode`, `SQLiteIndexMountSource.versions`
  * not modelled: `SQLiteIndexMountSource._check_database`, `SQLiteIndexMountSource.__enter__`, `SQLiteIndexMountSource.__exit__`, `SQLiteIndexMountSource.close`, `SQLiteIndexMountSource.is_immutable`, `SQLiteIndexMountSource.list_xattr`, `SQLiteIndexMountSource.get_xattr`
* `core/ratarmountcore/mountsource/archives.py`
  * modelled (Detect/Backends): `_open_libarchive_mount_source`
  * not modelled: `_open_tar_mount_source`
* `core/ratarmountcore/mountsource/compositing/automount.py`
  * modelled (Compose/Automount, Compose/LayerXattrs, Compose/Layers, Compose/Lazy, Compose/SplitMount, Overlay/Meta): `AutoMountLayer.__init__`, `AutoMountLayer._simply_find_mounted`, `AutoMountLayer.get_recursion_depth`, `AutoMountLayer._try_to_mount_file`, `AutoMountLayer._find_mounted`, `AutoMountLayer.lookup`, `AutoMountLayer._append_mount_points`, `AutoMountLayer.list`, `AutoMountLayer.versions`, `AutoMountLayer.open`, `AutoMountLayer.read`, `AutoMountLayer.list_xattr`, `AutoMountLayer.get_xattr`, `AutoMountLayer.get_mount_source`
  * not modelled: `AutoMountLayer.is_immutable`, `AutoMountLayer.list_mode`, `AutoMountLayer.statfs`, `AutoMountLayer.__exit__`, `AutoMountLayer.join_threads`
* `core/ratarmountcore/mountsource/compositing/removeprefix.py`
  * modelled (Compose/LayerXattrs, Compose/Layers, Compose/Prefix, Compose/Source): `RemovePrefixMountSource.__init__`, `RemovePrefixMountSource._parse_path`, `RemovePrefixMountSource.list`, `RemovePrefixMountSource.list_mode`, `RemovePrefixMountSource.lookup`, `RemovePrefixMountSource.versions`, `RemovePrefixMountSource.exists`, `RemovePrefixMountSource.is_dir`, `RemovePrefixMountSource.open`, `RemovePrefixMountSource.read`, `RemovePrefixMountSource.get_mount_source`, `RemovePrefixMountSource.list_xattr`, `RemovePrefixMountSource.get_xattr`, `RemovePrefixMountSource.statfs`, `RemovePrefixMountSource.is_immutable`
  * not modelled: `RemovePrefixMountSource.__enter__`, `RemovePrefixMountSource.__exit__`
* `core/ratarmountcore/mountsource/compositing/singlefile.py`
  * modelled (Compose/LayerXattrs, Compose/SingleFile, Compose/SplitMount): `_get_mode`, `SingleFileMountSource.__init__`, `SingleFileMountSource._create_file_info`, `SingleFileMountSource.list`, `SingleFileMountSource.lookup`, `SingleFileMountSource.open`
  * not modelled: `SingleFileMountSource.is_immutable`, `SingleFileMountSource.statfs`, `SingleFileMountSource.__exit__`, `SingleFileMountSource.join_threads`
* `core/ratarmountcore/mountsource/compositing/subvolumes.py`
  * modelled (Compose/LayerXattrs, Compose/Layers, Compose/Subvolumes, Fuse/MultiMount): `SubvolumesMountSource.__init__`, `SubvolumesMountSource._get_by_path`, `SubvolumesMountSource.is_mountable`, `SubvolumesMountSource.mount`, `SubvolumesMountSource.unmount`, `SubvolumesMountSource._find_mount_source`, `SubvolumesMountSource.lookup`, `SubvolumesMountSource.versions`, `SubvolumesMountSource._list`, `SubvolumesMountSource.list`, `SubvolumesMountSource.open`, `SubvolumesMountSource.read`, `SubvolumesMountSource.list_xattr`, `SubvolumesMountSource.get_xattr`, `SubvolumesMountSource.get_mount_source`
  * not modelled: `SubvolumesMountSource.is_immutable`, `SubvolumesMountSource.list_mode`, `SubvolumesMountSource.__exit__`, `SubvolumesMountSource.join_threads`
* `core/ratarmountcore/mountsource/compositing/union.py`
  * modelled (Compose/LayerXattrs, Compose/Layers, Compose/Source, Compose/Union, Compose/Unversioned, Formats/Fsspec, Fuse/UnionMount, Overlay/Controlled, Overlay/Model): `UnionMountSource.__init__`, `UnionMountSource._build_folder_cache`, `UnionMountSource.is_immutable`, `UnionMountSource.lookup`, `UnionMountSource.versions`, `UnionMountSource._list`, `UnionMountSource.list`, `UnionMountSource.list_mode`, `UnionMountSource.open`, `UnionMountSource.read`, `UnionMountSource.list_xattr`, `UnionMountSource.get_xattr`, `UnionMountSource.get_mount_source`
  * not modelled: `UnionMountSource.statfs`, `UnionMountSource.__exit__`, `UnionMountSource.join_threads`
* `core/ratarmountcore/mountsource/compositing/versioning.py`
  * modelled (Compose/LayerXattrs, Compose/Layers, Compose/Versioning, Fuse/FolderIndex, Fuse/FolderMount, Fuse/IndexMount, Fuse/LibMount, Fuse/ObjectMount, Fuse/OldVersions, Fuse/TarMount, Fuse/TarNested, Fuse/UnionMount): `FileVersionLayer.__init__`, `FileVersionLayer._decode_versions_path_api`, `FileVersionLayer._is_hard_link`, `FileVersionLayer._resolve_hard_links`, `FileVersionLayer.is_immutable`, `FileVersionLayer._list_wrapper`, `FileVersionLayer.list`, `FileVersionLayer.list_mode`, `FileVersionLayer.lookup`, `FileVersionLayer.versions`, `FileVersionLayer.open`, `FileVersionLayer.read`, `FileVersionLayer.get_mount_source`, `FileVersionLayer.list_xattr`, `FileVersionLayer.get_xattr`
  * not modelled: `FileVersionLayer.__exit__`, `FileVersionLayer.statfs`, `FileVersionLayer.join_threads`
* `core/ratarmountcore/mountsource/factory.py`
  * modelled (Detect/Backends, Detect/Extension, Formats/GitUrl, Formats/Url, Fuse/TarOver, Index/Direct, Index/Recreate): `_open_git_mount_source`, `_open_sshfs_mount_source`, `try_open_url`, `_matches_extension`, `find_backends_by_extension`, `open_mount_source`
  * not modelled: `FixedSSHFileSystem.open`, `FixedDropboxDriveFileSystem.info`
* `core/ratarmountcore/mountsource/formats/ar.py`
  * modelled (Formats/Ar, Fuse/ArMount, Fuse/IndexMount, Fuse/ThinMount): `_parse_ar_archive`, `ARMountSource.__init__`, `ARMountSource._convert_to_row`, `ARMountSource._open_stencil`
  * not modelled: `ARMountSource.open`
* `core/ratarmountcore/mountsource/formats/asar.py`
  * modelled (Formats/Asar, Fuse/AsarMount, Fuse/IndexMount): `ASARMountSource.__init__`, `ASARMountSource._convert_to_row`, `ASARMountSource._create_index`, `ASARMountSource.close`, `ASARMountSource._open_stencil`
  * not modelled: `ASARMountSource.open`
* `core/ratarmountcore/mountsource/formats/ext4.py`
  * modelled (Compose/Unversioned, Formats/Ext4): `EXT4MountSource.__init__`, `EXT4MountSource._convert_ext4_directory_entry_to_file_info`, `EXT4MountSource.is_immutable`, `EXT4MountSource.exists`, `EXT4MountSource._list`, `EXT4MountSource.list`, `EXT4MountSource.list_mode`, `EXT4MountSource.lookup`, `EXT4MountSource.versions`, `EXT4MountSource.open`, `EXT4MountSource.__exit__`
  * not modelled: `is_ext4_image`
* `core/ratarmountcore/mountsource/formats/fat.py`
  * modelled (Compose/Unversioned, Fat/Demo, Fat/Header, Fat/Image, Fat/Mounted, Fat/Source, Fat/Tree): `is_fat_image`, `FATMountSource.__init__`, `FATMountSource._convert_fatdirectory_entry_to_file_info`, `FATMountSource.is_immutable`, `FATMountSource.exists`, `FATMountSource._list`, `FATMountSource.list`, `FATMountSource.lookup`, `FATMountSource.versions`, `FATMountSource.open`
  * not modelled: `FATMountSource.__exit__`
* `core/ratarmountcore/mountsource/formats/folder.py`
  * modelled (Compose/LayerXattrs, Formats/Folder, Formats/IndexedFolder, Fuse/FolderIndex, Fuse/FolderMount, Fuse/SelfBind): `max_up_count`, `FolderMountSource.__init__`, `FolderMountSource.set_folder_descriptor`, `FolderMountSource._get_statfs_for_folder`, `FolderMountSource._realpath`, `FolderMountSource._stats_to_file_info`, `FolderMountSource._dir_entry_to_file_info`, `FolderMountSource.is_immutable`, `FolderMountSource.exists`, `FolderMountSource.lookup`, `FolderMountSource.list`, `FolderMountSource.list_mode`, `FolderMountSource.versions`, `FolderMountSource.open`, `FolderMountSource.statfs`, `FolderMountSource.list_xattr`, `FolderMountSource.get_xattr`, `FolderMountSource.__exit__`, `FolderMountSource.get_file_path`, `IndexedFolderMountSource.__init__`, `IndexedFolderMountSource.set_folder_descriptor`, `IndexedFolderMountSource._realpath`, `IndexedFolderMountSource._create_index`, `IndexedFolderMountSource.statfs`, `IndexedFolderMountSource._get_path_in_index`, `IndexedFolderMountSource.open`, `IndexedFolderMountSource.get_file_path`
* `core/ratarmountcore/mountsource/formats/fsspec.py`
  * modelled (Compose/Unversioned, Formats/Fsspec): `FSSpecMountSource.__init__`, `FSSpecMountSource._get_path`, `FSSpecMountSource._get_mode`, `FSSpecMountSource._get_modification_time`, `FSSpecMountSource._convert_to_file_info`, `FSSpecMountSource.is_immutable`, `FSSpecMountSource.exists`, `FSSpecMountSource._list`, `FSSpecMountSource.list`, `FSSpecMountSource.list_mode`, `FSSpecMountSource._lookup_http`, `FSSpecMountSource.lookup`, `FSSpecMountSource.versions`
  * not modelled: `FSSpecMountSource.open`, `FSSpecMountSource.__exit__`
* `core/ratarmountcore/mountsource/formats/git.py`
  * modelled (Compose/Unversioned, Formats/Git, Formats/GitUrl): `GitMountSource.__init__`, `GitMountSource._get_default_reference`, `GitMountSource._look_up_path`, `GitMountSource._convert_to_file_mode`, `GitMountSource._convert_to_file_info`, `GitMountSource.is_immutable`, `GitMountSource.exists`, `GitMountSource._list`, `GitMountSource.list`, `GitMountSource.list_mode`, `GitMountSource.lookup`, `GitMountSource.versions`, `GitMountSource.open`, `GitMountSource.__exit__`
* `core/ratarmountcore/mountsource/formats/html.py`
  * modelled (Formats/EmbeddedRows, Formats/Html, Formats/HtmlPlaces, Fuse/HtmlMount): `HTMLDataURLParser.__init__`, `HTMLDataURLParser.handle_starttag`, `HTMLDataURLParser.handle_endtag`, `HTMLDataURLParser.handle_data`, `HTMLDataURLParser.handle_decl`, `HTMLDataURLParser.handle_entityref`, `HTMLDataURLParser.handle_charref`, `HTMLDataURLParser._update_end_offset`, `DataURLFile.__init__`, `_find_tag_attribute_spans`, `gather_embedded_files`, `HTMLMountSource.__init__`, `HTMLMountSource._convert_to_row`, `HTMLMountSource._open_with_span`, `HTMLMountSource.open`, `HTMLMountSource.close`
* `core/ratarmountcore/mountsource/formats/libarchive.py`
  * modelled (Formats/Libarchive, Formats/LibarchiveRows, Formats/SharedFile, Fuse/LibarchiveMount): `ArchiveEntry.__init__`, `ArchiveEntry.__del__`, `ArchiveEntry.format_name`, `ArchiveEntry.get_time_by_name`, `ArchiveEntry.get_time`, `ArchiveEntry.path`, `ArchiveEntry.mode`, `ArchiveEntry.filetype`, `ArchiveEntry.is_directory`, `ArchiveEntry.is_symbolic_link`, `ArchiveEntry.linkname`, `ArchiveEntry.convert_to_row`, `IterableArchive.__init__`, `IterableArchive.format_name`, `IterableArchive.filter_names`, `IterableArchive._try_to_open`, `IterableArchive._set_passwords`, `IterableArchive._open_with_file_object`, `IterableArchive.__enter__`, `IterableArchive.__exit__`, `IterableArchive.__del__`, `IterableArchive.next_entry`, `IterableArchive.entry_index`, `IterableArchive.read_data`, `IterableArchiveCache.__init__`, `IterableArchiveCache.insert`, `IterableArchiveCache.take`, `LibarchiveFile.__init__`, `LibarchiveFile._open`, `LibarchiveFile._refill_buffer`, `LibarchiveFile.close`, `LibarchiveFile.fileno`, `LibarchiveFile.seekable`, `LibarchiveFile.readable`, `LibarchiveFile.writable`, `LibarchiveFile.read1`, `LibarchiveFile.read`, `LibarchiveFile._skip`, `LibarchiveFile.seek`, `LibarchiveFile.tell`, `LibarchiveMountSource.__init__`, `LibarchiveMountSource._create_index`, `LibarchiveMountSource.__del__`, `LibarchiveMountSource.open`
* `core/ratarmountcore/mountsource/formats/ogg.py`
  * modelled (Formats/Ogg, Fuse/OggMount): `parse_ogg_page_header`, `detect_media_type`, `parse_ogg`, `OGGMountSource.__init__`, `OGGMountSource._convert_to_row`, `OGGMountSource.open`
  * not modelled: `parse_ogg_comment_string`, `parse_ogg_comments`, `OGMStreamParser.__init__`, `OGMStreamParser.parse_stream_header`, `OGMStreamParser.feed_packet`, `OGMStreamParser.feed`, `OGGMountSource.close`
* `core/ratarmountcore/mountsource/formats/pdf.py`
  * modelled (Formats/EmbeddedRows, Formats/Pdf, Fuse/PdfMount): `gather_embedded_files`, `PDFMountSource.__init__`, `PDFMountSource._open_with_offset`, `PDFMountSource._convert_to_row`, `PDFMountSource.open`, `PDFMountSource.close`
* `core/ratarmountcore/mountsource/formats/py7zr.py`
  * modelled (Formats/Passwords, Formats/SevenZip, Formats/SevenZipSource, Fuse/SevenZipMount): `CachedFile.__init__`, `CachedFile.write`, `CachedFileFactory.__init__`, `CachedFileFactory.create`, `open_in_memory`, `Py7zrMountSource.__init__`, `Py7zrMountSource._convert_to_row`, `Py7zrMountSource._find_password`, `Py7zrMountSource.close`, `Py7zrMountSource.open`
  * not modelled: `CachedFile.read`, `CachedFile.flush`, `CachedFile.seek`, `CachedFile.size`
* `core/ratarmountcore/mountsource/formats/rar.py`
  * modelled (Detect/Extension, Detect/Signatures, Formats/Passwords, Formats/Rar, Fuse/RarMount): `is_rar_file`, `RarMountSource.__init__`, `RarMountSource._clean_path`, `RarMountSource._find_password`, `RarMountSource._get_mode`, `RarMountSource._convert_to_file_info`, `RarMountSource.is_immutable`, `RarMountSource._get_name`, `RarMountSource.list`, `RarMountSource.list_mode`, `RarMountSource._lookups`, `RarMountSource.lookup`, `RarMountSource.versions`, `RarMountSource.open`
  * not modelled: `RarMountSource.__exit__`
* `core/ratarmountcore/mountsource/formats/sqlar.py`
  * modelled (Formats/Passwords, Formats/Sqlar, Fuse/SqlarMount): `FixedSqliteBlob.__init__`, `SQLARMountSource.__init__`, `SQLARMountSource._quick_check_file`, `SQLARMountSource._check_database`, `SQLARMountSource._find_password`, `SQLARMountSource._convert_to_file_info`, `SQLARMountSource.is_immutable`, `SQLARMountSource._list_names`, `SQLARMountSource.list`, `SQLARMountSource.list_mode`, `SQLARMountSource.lookup`, `SQLARMountSource.open`, `SQLARMountSource.__exit__`
* `core/ratarmountcore/mountsource/formats/squashfs.py`
  * modelled (Formats/SquashFS, Formats/SquashFSRows, Fuse/LibMount, Fuse/SquashMount): `SquashFSFile.__init__`, `SquashFSFile._refill_buffer`, `SquashFSFile.readinto`, `SquashFSFile.read1`, `SquashFSFile.read`, `SquashFSFile.fileno`, `SquashFSFile.seekable`, `SquashFSFile.readable`, `SquashFSFile.writable`, `SquashFSFile.seek`, `SquashFSFile.tell`, `SquashFSImage._join_inode_offset`, `SquashFSImage._split_inode_offset`, `SquashFSImage.__iter__`, `SquashFSImage._open_directory`, `SquashFSImage._recursive_inodes_iterator`, `SquashFSImage._root`, `SquashFSImage._root`, `SquashFSImage.open`, `SquashFSMountSource.__init__`, `SquashFSMountSource._convert_to_row`, `SquashFSMountSource._create_index`, `SquashFSMountSource.close`, `SquashFSMountSource.__del__`, `SquashFSMountSource.open`
  * not modelled: `IsalZlibDecompressor.__init__`, `IsalZlibDecompressor.uncompress`, `LibdeflateZlibDecompressor.__init__`, `LibdeflateZlibDecompressor.uncompress`, `LZ4Compressor.__init__`, `LZ4Compressor.uncompress`, `LZMACompressor.__init__`, `LZMACompressor.uncompress`, `SquashFSImage.__init__`, `SquashFSImage._get_compressor`, `SquashFSImage._initialize`, `SquashFSImage._generate_root`, `SquashFSImage.read_inode`, `SquashFSMountSource.statfs`
* `core/ratarmountcore/mountsource/formats/tar.py`
  * modelled (Cli/Depth, Detect/Open, Detect/Threads, Fuse/Stat, Fuse/TarFiles, Fuse/TarLife, Fuse/TarMount, Fuse/TarNested, Fuse/TarTable, Fuse/UnionMount, Index/Loaded, Index/Writable, Overlay/Commit, Overlay/Witness, Tar/Append, Tar/Attributes, Tar/Damage, Tar/Header, Tar/Incremental, Tar/Index, Tar/Offsets, Tar/Scan, Tar/Sparse, Tar/Verify): `_TarFileMetadataReader.__init__`, `_TarFileMetadataReader._get_tar_prefix`, `_TarFileMetadataReader._tar_info_full_mode`, `_TarFileMetadataReader._fix_incremental_backup_name_prefixes`, `_TarFileMetadataReader._process_tar_info`, `_TarFileMetadataReader._get_pax_size`, `_TarFileMetadataReader.find_tar_file_offsets`, `_TarFileMetadataReader._open_tar`, `_TarFileMetadataReader._process_serial`, `_TarFileMetadataReader.process`, `SQLiteIndexedTar.__init__`, `SQLiteIndexedTar.__del__`, `SQLiteIndexedTar._detect_gnu_incremental`, `SQLiteIndexedTar.close`, `SQLiteIndexedTar._get_archive_path`, `SQLiteIndexedTar._store_metadata`, `SQLiteIndexedTar._update_progress_bar`, `SQLiteIndexedTar._create_index`, `SQLiteIndexedTar._create_index_recursively`, `SQLiteIndexedTar._open_stencil`, `SQLiteIndexedTar.open`, `SQLiteIndexedTar.read`, `SQLiteIndexedTar.statfs`, `SQLiteIndexedTar._get_past_end_offset`, `SQLiteIndexedTar._try_to_mark_as_appended`, `SQLiteIndexedTar._check_metadata`, `SQLiteIndexedTar._check_metadata2`, `SQLiteIndexedTar._check_index_validity`, `SQLiteIndexedTar._check_rows_validity`, `SQLiteIndexedTar._load_or_store_compression_offsets`
  * not modelled: `patch_tarfile`, `SQLiteIndexedTar.join_threads`
* `core/ratarmountcore/mountsource/formats/zip.py`
  * modelled (Formats/Zip, Fuse/ObjectMount, Fuse/ZipMount, Index/Reuse): `ZipMountSource.__init__`, `ZipMountSource._convert_to_row`, `ZipMountSource._find_password`, `ZipMountSource.open`
  * not modelled: `ZipMountSource.close`
* `core/ratarmountcore/utils.py`
  * modelled (Cache/BlockReader, Cache/Lru, Cli/Depth, Cli/InputFile, Cli/Options, Cli/Random, Compose/Automount, Fuse/Stat, Index/Writable, Names/FormatNumber, Names/SplitFile, Stencil/Joined, Tar/Attributes, Tar/Index, Tar/Offsets): `ceil_div`, `LRUCache.__init__`, `LRUCache._refresh`, `LRUCache.__getitem__`, `LRUCache.get`, `LRUCache.__setitem__`, `LRUCache.__delitem__`, `LRUCache.__contains__`, `LRUCache.__len__`, `LRUCache.__repr__`, `LRUCache.__str__`, `LRUCache.clear`, `LRUCache.keys`, `LRUCache.values`, `LRUCache.setdefault`, `LRUCache.__bool__`, `Prefetcher.fetch`, `Prefetcher.prefetch`, `is_latin_alpha`, `is_latin_digit`, `is_latin_hex_alpha`, `format_number`, `FixedRawIOBase.readall`, `decode_unpadded_base64`, `remove_duplicates_stable`, `determine_recursion_depth`, `compute_entropy`, `is_random`, `create_folder_from_file_permissions`, `ensure_writable_path`, `unchecked_remove`
  * not modelled: `overrides`, `Prefetcher.__init__`, `distribution_contains_file`, `get_module`, `find_module_version`, `is_on_slow_drive`, `get_xdg_cache_home`, `get_userid`, `get_groupid`
* `ratarmount/CLIHelpers.py`
  * modelled (Cli/InputFile, Cli/Options, Cli/Parallelization, Cli/Random, Cli/Sources, Index/Recreate): `check_input_file_type`, `parse_parallelization`, `process_trivial_parsed_arguments`, `parsed_args_to_options`
* `ratarmount/FuseMount.py`
  * modelled (Cli/Command, Cli/Control, Cli/Depth, Cli/IndexPaths, Cli/Options, Compose/LayerXattrs, Fuse/FolderIndex, Fuse/FolderMount, Fuse/Handles, Fuse/IndexMount, Fuse/LibMount, Fuse/MultiMount, Fuse/ObjectMount, Fuse/SelfBind, Fuse/Stat, Fuse/TarFiles, Fuse/TarMount, Fuse/TarNested, Fuse/TarOver, Fuse/UnionMount, Overlay/Controlled, Overlay/History, Overlay/Host, Overlay/Meta, Overlay/Model, Overlay/OverTar, Overlay/Refine): `split_command_line`, `CommandFile.__init__`, `CommandFile.writable`, `CommandFile.write`, `CommandFile.close`, `CommandFile.tell`, `FuseMount.__init__`, `FuseMount._close`, `FuseMount._path_provided_by_us`, `FuseMount._filter_index_locations_in_fuse_mount`, `FuseMount._create_multi_mount`, `FuseMount.mount`, `FuseMount.unmount`, `FuseMount._process_parsed_arguments`, `FuseMount._parse_command`, `FuseMount._add_new_handle`, `FuseMount._lookup`, `FuseMount._redirect_output`, `FuseMount.init`, `FuseMount.getattr`, `FuseMount.readdir`, `FuseMount.readlink`, `FuseMount.open`, `FuseMount.release`, `FuseMount.read`, `FuseMount._is_write_overlay_handle`, `FuseMount._resolve_file_handle`, `FuseMount.create`, `FuseMount.truncate`, `FuseMount.write`, `FuseMount.flush`, `FuseMount.fsync`, `FuseMount.statfs`, `FuseMount.listxattr`, `FuseMount.getxattr`
  * not modelled: `FuseMount.__enter__`, `FuseMount.__exit__`, `FuseMount.__del__`
* `ratarmount/WriteOverlay.py`
  * modelled (Overlay/Commit, Overlay/Controlled, Overlay/Entries, Overlay/Host, Overlay/Meta, Overlay/Model, Overlay/MoveFolder, Overlay/OverTar, Overlay/Paths, Overlay/Refine): `check_ignored_prefixes`, `WritableFolderMountSource.__init__`, `WritableFolderMountSource._split_path`, `WritableFolderMountSource._realpath`, `WritableFolderMountSource._ensure_parent_exists`, `WritableFolderMountSource._ensure_file_is_modifiable`, `WritableFolderMountSource._open`, `WritableFolderMountSource._mark_as_deleted`, `WritableFolderMountSource.list_deleted`, `WritableFolderMountSource.is_deleted`, `WritableFolderMountSource._set_metadata`, `WritableFolderMountSource._init_file_metadata`, `WritableFolderMountSource._set_file_metadata`, `WritableFolderMountSource.update_file_info`, `WritableFolderMountSource.chmod`, `WritableFolderMountSource.chown`, `WritableFolderMountSource.utimens`, `WritableFolderMountSource.rename`, `WritableFolderMountSource.symlink`, `WritableFolderMountSource.link`, `WritableFolderMountSource.mkdir`, `WritableFolderMountSource.rmdir`, `WritableFolderMountSource.open`, `WritableFolderMountSource.create`, `WritableFolderMountSource.unlink`, `WritableFolderMountSource.mknod`, `WritableFolderMountSource.truncate`, `WritableFolderMountSource.write`, `WritableFolderMountSource.flush`, `WritableFolderMountSource.fsync`, `WritableFolderMountSource.statfs`, `commit_overlay`
  * not modelled: `WritableFolderMountSource._get_statfs_for_folder`, `WritableFolderMountSource._open_sql_db`, `WritableFolderMountSource.set_folder_descriptor`
* `ratarmount/actions.py`
  * modelled (Cli/Depth, Cli/InputFile, Cli/MountPoint, Cli/Options, Cli/Sources, Cli/Unmount, Fuse/SelfBind, Fuse/TarMount): `unmount`, `unmount_list_checked`, `determine_mount_point`, `process_parsed_arguments`, `create_fuse_mount`
  * not modelled: `has_fuse_non_empty_support`, `is_inside_fuse_context`, `forbid_call_from_fuse`
* `ratarmount/cli.py`
  * modelled (Cli/Depth, Cli/Options, Index/Recreate): `AppendCommaSeparatedOverwriteDefault.__call__`, `create_parser`
  * not modelled: `_RichFormatter.add_arguments`, `_RichFormatter._rich_split_lines`, `_CustomFormatter.add_arguments`, `_CustomFormatter._split_lines`, `PrintVersionAction.__call__`, `PrintOSSAttributionAction.__call__`, `PrintOSSAttributionShortAction.__call__`, `configure_logging`, `cli`
* `ratarmount/dependencies.py`
  * not modelled: `parse_requirement`, `get_readme`, `print_metadata_recursively`, `get_url_and_license_from_github_subpath`, `gather_system_software_versions`, `gather_shared_library_versions`, `gather_version_information`, `gather_versions`, `print_versions`, `find_short_license`, `create_oss_markdown`, `print_oss_attributions`

{
 "claims": [
  {
   "property": "C01",
   "status": "proved",
   "theorems": [
    "Verif.Stencil.C01_stencil_reads_are_slices",
    "Verif.Stencil.C01_negative_ranges_rejected"
   ],
   "note": "Refinement of RawStenciledFile to an in-memory file for every list of ranges, history of read/seek/tell and disturbance of the underlying positions."
  },
  {
   "property": "C02",
   "status": "partial",
   "theorems": [
    "Verif.Stencil.C02_violated",
    "Verif.Stencil.C02_recovery_partial"
   ],
   "note": "The code violates the claim (C02_violated: a rejected seek leaves a negative position behind). Proved: the next absolute seek recovers. Missing: calls between the rejected seek and that absolute seek."
  },
  {
   "property": "C03",
   "status": "proved",
   "theorems": [
    "Verif.Stencil.C03_joined_history",
    "Verif.Stencil.C03_readall"
   ],
   "note": "RawJoinedFileFromFactory: any history, and reading to the end."
  },
  {
   "property": "C04",
   "status": "proved",
   "theorems": [
    "Verif.Stencil.C04_concurrent_reads",
    "Verif.Stencil.C04_no_deadlock",
    "Verif.Stencil.C04_lock_is_needed"
   ],
   "note": "Interleaved micro-step model of locked readers: results equal sequential reads, no deadlock; the lock is needed."
  },
  {
   "property": "C05",
   "status": "proved",
   "theorems": [
    "Verif.Stencil.C05_lambda_reader",
    "Verif.Stencil.C05_zero_file",
    "Verif.Stencil.C05_blob_file"
   ],
   "note": "LambdaReaderFile, ZeroFile, SQLiteBlobFile refine an in-memory file."
  },
  {
   "property": "C06",
   "status": "proved",
   "theorems": [
    "Verif.Stencil.C06_blob_roundtrip"
   ],
   "note": "Writer and reader composed; the SQLite table is a list of rows."
  },
  {
   "property": "C07",
   "status": "partial",
   "theorems": [
    "Verif.Stencil.C07_violated",
    "Verif.Stencil.C07_row_bound_partial"
   ],
   "note": "The code violates the claim for writes larger than the blob size (C07_violated). Proved for writes up to the blob size."
  },
  {
   "property": "C08",
   "status": "partial",
   "theorems": [
    "Verif.Cache.C08_violated",
    "Verif.Cache.C08_setdefault_violated",
    "Verif.Cache.C08_recency_partial"
   ],
   "note": "The code violates the claim twice (C08_violated: failed look-ups leave stale keys and later inserts raise; C08_setdefault_violated: setdefault never evicts). Proved for all other histories."
  },
  {
   "property": "C09",
   "status": "proved",
   "theorems": [
    "Verif.Cache.C09_never_stale",
    "Verif.Cache.C09_setdefault"
   ],
   "note": "For every history, including those that raise."
  },
  {
   "property": "C10",
   "status": "proved",
   "theorems": [
    "Verif.Cache.C10_block_reads"
   ],
   "note": "Refinement to an in-memory file for every block partition, worker pool readiness and prefetch count; parallel decoding is represented by its result."
  },
  {
   "property": "C11",
   "status": "partial",
   "theorems": [
    "Verif.Cache.C11_violated",
    "Verif.Cache.C11_at_end_partial"
   ],
   "note": "The code violates the claim (C11_violated: read() loses the last byte of the block and moves backwards). Proved at and after the end of the file."
  },
  {
   "property": "C12",
   "status": "proved",
   "theorems": [
    "Verif.Names.C12_positional",
    "Verif.Names.C12_injective",
    "Verif.Names.C12_order",
    "Verif.Names.C12_small_alphabet"
   ],
   "note": "Every number, alphabet and padding."
  },
  {
   "property": "C13",
   "status": "partial",
   "theorems": [
    "Verif.Names.C13_violated",
    "Verif.Names.C13_gap_free_partial",
    "Verif.Names.C13_detected",
    "Verif.Names.C13_numbered",
    "Verif.Names.C13_other",
    "Verif.Names.C13_terminates"
   ],
   "note": "The code violates the claim about equal suffix lengths (C13_violated). Proved: gap-free, ordered, complete sequence, and termination. Missing: equal suffix lengths."
  },
  {
   "property": "C14",
   "status": "proved",
   "theorems": [
    "Verif.Index.C14_canonical",
    "Verif.Index.C14_nonempty",
    "Verif.Index.C14_slashes",
    "Verif.Index.C14_fixed",
    "Verif.Index.C14_idempotent",
    "Verif.Index.C14_shape",
    "Verif.Index.C14_query",
    "Verif.Index.C14_query_above_root"
   ],
   "note": "Every string; posixpath.normpath is modelled on components."
  },
  {
   "property": "C15",
   "status": "proved",
   "theorems": [
    "Verif.Index.C15_lookup",
    "Verif.Index.C15_versions",
    "Verif.Index.C15_root"
   ],
   "note": "For every table, path and version number; SQLite ordering is a sort by offsetheader."
  },
  {
   "property": "C16",
   "status": "proved",
   "theorems": [
    "Verif.Index.C16_list_lookup",
    "Verif.Index.C16_listed_names",
    "Verif.Index.C16_none"
   ],
   "note": "For every table."
  },
  {
   "property": "C17",
   "status": "partial",
   "theorems": [
    "Verif.Index.C17_violated",
    "Verif.Index.C17_reachable_partial",
    "Verif.Index.C17_entry_found",
    "Verif.Index.C17_directory_version_partial"
   ],
   "note": "The code violates the claim (C17_violated: a file /a stored after /a/b hides the folder). Proved: reachable when no ancestor is stored as a non-folder, the entry itself is always found, and every ancestor has a folder version. Missing: the newest version of an ancestor is a folder."
  },
  {
   "property": "C18",
   "status": "partial",
   "theorems": [
    "Verif.Index.C18_violated",
    "Verif.Index.C18_after_schema_partial",
    "Verif.Index.C18_complete_accepted",
    "Verif.Index.C18_append"
   ],
   "note": "The code violates the claim (C18_violated: stop between CREATE of files and filestmp leaves an accepted empty index). Proved for every stop after the schema is complete, for complete creation and for appending. Missing: stops inside the schema script."
  },
  {
   "property": "C19",
   "status": "partial",
   "theorems": [
    "Verif.Index.C19_violated",
    "Verif.Index.C19_order_partial",
    "Verif.Index.C19_replaced"
   ],
   "note": "The code violates the claim (C19_violated: a generated parent folder takes the offset of whichever child came first). Proved for rows whose ancestors are stored, and for replaced rows."
  },
  {
   "property": "C20",
   "status": "partial",
   "theorems": [
    "Verif.Index.C20_violated",
    "Verif.Index.C20_list_partial",
    "Verif.Index.C20_get_partial",
    "Verif.Index.C20_others",
    "Verif.Index.C20_root"
   ],
   "note": "The code violates the claim (C20_violated: a generated parent folder shows the attributes of a child because it shares its offset). Proved for entries whose header offset is unique, plus isolation from other entries and the empty result for the root."
  },
  {
   "property": "C21",
   "status": "partial",
   "theorems": [
    "Verif.Index.C21_resume",
    "Verif.Index.C21_complete",
    "Verif.Index.C21_violated",
    "Verif.Index.C21_reads_partial",
    "Verif.Index.C21_regular"
   ],
   "note": "Resumption is proved for every sequence of stops. The code violates the claim about reading each file once (C21_violated: an unsupported algorithm makes every mount read the archive again). Proved for supported algorithms."
  },
  {
   "property": "C22",
   "status": "proved",
   "theorems": [
    "Verif.Index.C22_removed",
    "Verif.Index.C22_mismatch",
    "Verif.Index.C22_cleared"
   ],
   "note": "All combinations of loading results, options and index locations."
  },
  {
   "property": "C23",
   "status": "partial",
   "theorems": [
    "Verif.Tar.C23_violated",
    "Verif.Tar.C23_extended_partial",
    "Verif.Tar.C23_some_index",
    "Verif.Tar.C23_unchanged",
    "Verif.Tar.C23_time",
    "Verif.Tar.C23_shrunk",
    "Verif.Tar.C23_grown"
   ],
   "note": "The code violates the claim (C23_violated: the append flag of a rejected candidate index stays set for the next candidate). Proved for a single candidate, and that some candidate was accepted as grown."
  },
  {
   "property": "C24",
   "status": "partial",
   "theorems": [
    "Verif.Tar.C24_violated",
    "Verif.Tar.C24_boundary_partial",
    "Verif.Tar.C24_none"
   ],
   "note": "The code violates the claim if the last member is a nested TAR (C24_violated). Proved when the last row is a member of the outer archive."
  },
  {
   "property": "C25",
   "status": "proved",
   "theorems": [
    "Verif.Tar.C25_stripped",
    "Verif.Tar.C25_nested",
    "Verif.Tar.C25_open",
    "Verif.Tar.C25_rows",
    "Verif.Tar.C25_members"
   ],
   "note": "Every archive that is a concatenation of members (with PAX/GNU helper headers) followed by zero blocks, at every nesting depth; header decoding is a parameter of the model. Global PAX headers are modelled as amending the next member only; GNU incremental name fixing is not modelled."
  },
  {
   "property": "C26",
   "status": "partial",
   "theorems": [
    "Verif.Tar.C26_contents",
    "Verif.Tar.C26_violated",
    "Verif.Tar.C26_accepts_partial"
   ],
   "note": "The code violates the claim: a sparse member without any hole cannot be opened (C26_violated). Proved: contents of every accepted map (C26_contents) and exactly which maps are accepted. Missing: maps without a hole."
  },
  {
   "property": "C27",
   "status": "partial",
   "theorems": [
    "Verif.Tar.C27_violated",
    "Verif.Tar.C27_inside_partial",
    "Verif.Tar.C27_prefix"
   ],
   "note": "The code violates the claim (C27_violated: read() does not clip at the member end). Proved when the requested range lies inside the member, and that the in-member prefix always agrees."
  },
  {
   "property": "C28",
   "status": "partial",
   "theorems": [
    "Verif.Tar.C28_violated",
    "Verif.Tar.C28_type_partial",
    "Verif.Tar.C28_links"
   ],
   "note": "The code violates the claim (C28_violated: block devices and hard links get no file type; stray type bits are or-ed in). Proved for the other type flags and modes without type bits; only symbolic links are reported as links."
  },
  {
   "property": "C29",
   "status": "partial",
   "theorems": [
    "Verif.Compose.C29_violated",
    "Verif.Compose.C29_versions_partial",
    "Verif.Compose.C29_count",
    "Verif.Compose.C29_last_wins_partial"
   ],
   "note": "The code violates the claim (C29_violated: a folder of one source hides a file of the same name through the folder cache). Proved for every number of sources and every version number if no cached folder is a file elsewhere. Missing: such conflicts."
  },
  {
   "property": "C30",
   "status": "partial",
   "theorems": [
    "Verif.Compose.C30_invisible_partial",
    "Verif.Compose.C30_violated"
   ],
   "note": "The code violates the claim (C30_violated). Proved for caches of any depth, aborted anywhere, if no cached folder is a file elsewhere. Missing: such conflicts."
  },
  {
   "property": "C31",
   "status": "partial",
   "theorems": [
    "Verif.Compose.C31_names",
    "Verif.Compose.C31_violated",
    "Verif.Compose.C31_metadata_partial"
   ],
   "note": "The code violates the claim about metadata (C31_violated: the first dictionary listing wins over a later source). Proved: names exactly those of the sources, nothing listed exactly if no source has the folder; the metadata is what one of the sources lists for the name. Missing: names that several sources have."
  },
  {
   "property": "C32",
   "status": "partial",
   "theorems": [
    "Verif.Compose.C32_union_tags",
    "Verif.Compose.C32_versions_tags",
    "Verif.Compose.C32_prefix_tags",
    "Verif.Compose.C32_subvolumes_tags",
    "Verif.Compose.C32_auto_tags",
    "Verif.Compose.C32_restored_partial",
    "Verif.Compose.C32_files_partial",
    "Verif.Compose.C32_violated",
    "Verif.Compose.C32_files_violated"
   ],
   "note": "The code violates the claim for folders of sub-volume mounts (C32_violated) and for files below an auto-mount layer directly above a version layer above a plain source (C32_files_violated; the mount command builds the other order). Proved for all other stacks of any depth, for files, and in stacks without sub-volumes for arbitrary objects. read is written like open; extended attributes and listings are not included."
  },
  {
   "property": "C33",
   "status": "proved",
   "theorems": [
    "Verif.Compose.C33_block_size",
    "Verif.Compose.C33_name_length",
    "Verif.Compose.C33_other"
   ],
   "note": "Every list of per-source dictionaries; values are integers."
  },
  {
   "property": "C34",
   "status": "partial",
   "theorems": [
    "Verif.Compose.C34_version",
    "Verif.Compose.C34_list",
    "Verif.Compose.C34_other",
    "Verif.Compose.C34_agrees",
    "Verif.Compose.C34_missing",
    "Verif.Compose.C34_violated",
    "Verif.Compose.C34_found_partial"
   ],
   "note": "The code violates the claim (C34_violated: p.versions/0 and negative numbers are found although not listed). Proved: any number of version steps along a path, listing, canonical numbers, other paths. Missing: numbers up to 0."
  },
  {
   "property": "C35",
   "status": "partial",
   "theorems": [
    "Verif.Compose.C35_violated",
    "Verif.Compose.C35_parent_partial"
   ],
   "note": "The code violates the claim (C35_violated: AssertionError). Proved if the parent folder is missing too."
  },
  {
   "property": "C36",
   "status": "partial",
   "theorems": [
    "Verif.Compose.C36_chain_partial",
    "Verif.Compose.C36_self",
    "Verif.Compose.C36_target",
    "Verif.Compose.C36_bounded",
    "Verif.Compose.C36_violated"
   ],
   "note": "Proved: at most 129 lookups for every link graph, self references, chains of up to 128 links. Longer chains are cut off (C36_violated)."
  },
  {
   "property": "C37",
   "status": "partial",
   "theorems": [
    "Verif.Compose.C37_below_partial",
    "Verif.Compose.C37_above",
    "Verif.Compose.C37_beside",
    "Verif.Compose.C37_violated"
   ],
   "note": "The code violates the claim (C37_violated: older versions below the prefix are not reachable, the version argument is dropped). Proved for every prefix and path: the newest version, version counts and listings below the prefix, folders above it, nothing beside it."
  },
  {
   "property": "C38",
   "status": "proved",
   "theorems": [
    "Verif.Compose.C38_refines",
    "Verif.Compose.C38_below",
    "Verif.Compose.C38_above",
    "Verif.Compose.C38_beside"
   ],
   "note": "Every sequence of mount and unmount calls, refinement of a list of mount points; mount paths are arbitrary strings, queried paths are canonical."
  },
  {
   "property": "C39",
   "status": "partial",
   "theorems": [
    "Verif.Compose.C39_open_partial",
    "Verif.Compose.C39_nested_fails",
    "Verif.Compose.C39_violated"
   ],
   "note": "The code violates the claim (C39_violated; C39_nested_fails: no file below a mount point deeper than the root can be opened). Proved for mount points in the root."
  },
  {
   "property": "C40",
   "status": "proved",
   "theorems": [
    "Verif.Compose.C40_longest",
    "Verif.Compose.C40_serves"
   ],
   "note": "Every set of mount points, canonical paths; C40_serves states where lookups and version counts come from."
  },
  {
   "property": "C41",
   "status": "partial",
   "theorems": [
    "Verif.Compose.C41_periodic",
    "Verif.Compose.C41_mount_point",
    "Verif.Compose.C41_violated",
    "Verif.Compose.C41_reachable_partial"
   ],
   "note": "The code violates reachability for archives inside of mounted archives (C41_violated). Proved: periodicity for every path, the meaning of every version number of a mount point, reachability for archives of the root source."
  },
  {
   "property": "C42",
   "status": "proved",
   "theorems": [
    "Verif.Compose.C42_init",
    "Verif.Compose.C42_tree",
    "Verif.Compose.C42_open",
    "Verif.Compose.C42_handles"
   ],
   "note": "For a given file object. Mount sources made from a function that opens the file are not modelled."
  },
  {
   "property": "C43",
   "status": "partial",
   "theorems": [
    "Verif.Overlay.C43_history_partial",
    "Verif.Overlay.C43_missing",
    "Verif.Overlay.C43_not_empty_partial",
    "Verif.Overlay.C43_violated"
   ],
   "note": "The code violates the claim (C43_violated: a folder rename that fails brings a removed file back). Proved for every history of calls that the kernel lets through, with the exceptions named in Works (renames and truncations that C45 and C47 exclude)."
  },
  {
   "property": "C44",
   "status": "partial",
   "theorems": [
    "Verif.Overlay.C44_symlink_partial",
    "Verif.Overlay.C44_mknod_partial",
    "Verif.Overlay.C44_link_partial",
    "Verif.Overlay.C44_violated",
    "Verif.Overlay.C44_node_violated",
    "Verif.Overlay.C44_folder_violated"
   ],
   "note": "The code violates the claim (C44_violated, C44_node_violated, C44_folder_violated: the mark of the deleted path is not removed, missing parent folders are not made). Proved if the path was never deleted and its folder is in the overlay or can be made."
  },
  {
   "property": "C45",
   "status": "partial",
   "theorems": [
    "Verif.Overlay.C45_rename_partial",
    "Verif.Overlay.C45_violated",
    "Verif.Overlay.C45_link_violated",
    "Verif.Overlay.C45_folder_violated"
   ],
   "note": "The code violates the claim (C45_violated: the archive still shows the old path of a changed file; C45_link_violated, C45_folder_violated: links become files, folders become empty files). Proved for files that only one layer has."
  },
  {
   "property": "C46",
   "status": "partial",
   "theorems": [
    "Verif.Overlay.C46_read",
    "Verif.Overlay.C46_history_partial",
    "Verif.Overlay.C46_write",
    "Verif.Overlay.C46_bytes"
   ],
   "note": "Proved for every history of calls (see C43) that reading gives the bytes of a plain file tree with the same history, also through handles (C51); the archive is not part of the state, so nothing changes it. The code violates the claim for handles that were opened before the first write (C51_violated)."
  },
  {
   "property": "C47",
   "status": "partial",
   "theorems": [
    "Verif.Overlay.C47_truncate_partial",
    "Verif.Overlay.C47_bytes",
    "Verif.Overlay.C47_zeros",
    "Verif.Overlay.C47_violated"
   ],
   "note": "The code violates the claim (C47_violated: truncating a file that was modified before leaves only zeros). Proved for files that only the archive has and for truncating to nothing."
  },
  {
   "property": "C48",
   "status": "partial",
   "theorems": [
    "Verif.Overlay.C48_history_partial",
    "Verif.Overlay.C48_archive",
    "Verif.Overlay.C48_result",
    "Verif.Overlay.C48_nothing",
    "Verif.Overlay.C48_violated",
    "Verif.Overlay.C48_write_violated"
   ],
   "note": "The code violates the claim for recursively mounted archives (C48_violated) and loses mode and owner on the first write (C48_write_violated). Proved for all histories of chmod, chown and utimens after every other history without recursive mounting."
  },
  {
   "property": "C49",
   "status": "partial",
   "theorems": [
    "Verif.Overlay.C49_database",
    "Verif.Overlay.C49_files_partial",
    "Verif.Overlay.C49_folders_partial",
    "Verif.Overlay.C49_violated",
    "Verif.Overlay.C49_link_violated",
    "Verif.Overlay.C49_folder_violated",
    "Verif.Overlay.C49_replaced_violated"
   ],
   "note": "The code violates the claim (C49_violated: a member stored as d//f cannot be deleted; C49_link_violated: a link to a folder in the overlay is lost; C49_folder_violated: deleting the only member below an implied folder removes the folder; C49_replaced_violated: a file replaced by a folder). Proved for files and for folders of archives with plain unique member names."
  },
  {
   "property": "C50",
   "status": "partial",
   "theorems": [
    "Verif.Overlay.C50_list_partial",
    "Verif.Overlay.C50_others_partial",
    "Verif.Overlay.C50_violated",
    "Verif.Overlay.C50_deleted_violated"
   ],
   "note": "The code violates the claim (C50_violated: the database can be looked up and read by its name; C50_deleted_violated: it can be deleted). Proved: no listing shows it, and calls that do not name it leave it alone."
  },
  {
   "property": "C51",
   "status": "partial",
   "theorems": [
    "Verif.Fuse.C51_unique",
    "Verif.Fuse.C51_readonly",
    "Verif.Fuse.C51_session_partial",
    "Verif.Fuse.C51_violated"
   ],
   "note": "The code violates the claim (C51_violated: a handle opened before the first write keeps reading the old bytes). Proved: handles are never shared, for all sequences of calls; for all sessions whose reads go through handles opened in the overlay or to files not written since, reads and writes act on the file that was opened; handles opened only for reading never write. Assumes that a file that is open is not removed or replaced (libfuse hides such files)."
  },
  {
   "property": "C52",
   "status": "partial",
   "theorems": [
    "Verif.Overlay.C52_listing_partial",
    "Verif.Overlay.C52_listed",
    "Verif.Overlay.C52_violated"
   ],
   "note": "The code violates the claim for user files that have the name of the database in any folder (C52_violated). Proved for all other names; that every listed name can be looked up is proved for all names."
  },
  {
   "property": "C53",
   "status": "partial",
   "theorems": [
    "Verif.Fuse.C53_unchanged_partial",
    "Verif.Fuse.C53_refused_partial",
    "Verif.Fuse.C53_overlay",
    "Verif.Fuse.C53_create"
   ],
   "note": "Proved for every sequence of calls, with and without an overlay. Missing: without an overlay, operations that FuseMount does not define (e.g. chmod, mkdir) are answered by the FUSE library, which is not in the repository and not modelled."
  },
  {
   "property": "C54",
   "status": "partial",
   "theorems": [
    "Verif.Fuse.C54_names_partial",
    "Verif.Fuse.C54_nameless",
    "Verif.Fuse.C54_violated"
   ],
   "note": "The code violates the claim (C54_violated: with the control interface nothing can be mounted). Proved for all sources with proper names, whatever they are."
  },
  {
   "property": "C55",
   "status": "proved",
   "theorems": [
    "Verif.Compress.C55_order",
    "Verif.Compress.C55_roundtrip",
    "Verif.Compress.C55_progress",
    "Verif.Compress.C55_terminates",
    "Verif.Compress.C55_zero"
   ],
   "note": "Every input, number of threads, frame size above zero, and order of completion; the workers are modelled more liberally than a pool. The compressor is any function with an inverse on frames. A frame size of zero gives an empty output (C55_zero)."
  },
  {
   "property": "C56",
   "status": "proved",
   "theorems": [
    "Verif.Detect.C56_first"
   ],
   "note": "Every set of installed modules, priorities and enabled backends."
  },
  {
   "property": "C57",
   "status": "partial",
   "theorems": [
    "Verif.Detect.C57_first_partial",
    "Verif.Detect.C57_libarchive",
    "Verif.Fat.C57_violated"
   ],
   "note": "The code violates the claim (C57_violated: the check for FAT images raises and the backends after it are not tried). Proved for every set of backends if no check raises and backends that return nothing put a given file object back, as libarchive does (C57_libarchive)."
  },
  {
   "property": "C58",
   "status": "proved",
   "theorems": [
    "Verif.Detect.C58_position",
    "Verif.Detect.C58_exact"
   ],
   "note": "Every registry that can be reached by replacing checks, every file and position; sets are lists."
  },
  {
   "property": "C59",
   "status": "proved",
   "theorems": [
    "Verif.Detect.C59_zstandard",
    "Verif.Detect.C59_lz4"
   ],
   "note": "Every file, any number of skippable frames."
  },
  {
   "property": "C60",
   "status": "proved",
   "theorems": [
    "Verif.Ar.C60_members",
    "Verif.Ar.C60_truncated",
    "Verif.Ar.C60_numbers",
    "Verif.Ar.C60_magic"
   ],
   "note": "Every list of members with short and BSD-style names, any data; truncated headers and a wrong magic are errors."
  },
  {
   "property": "C61",
   "status": "partial",
   "theorems": [
    "Verif.Ar.C61_other",
    "Verif.Ar.C61_first_partial",
    "Verif.Ar.C61_violated",
    "Verif.Ar.C61_thin",
    "Verif.Ar.C61_thin_late"
   ],
   "note": "The code violates the claim (C61_violated: names after the first of the table are not found because the position is used as an index into the list of names). Proved for the first name of every table, and for thin archives."
  },
  {
   "property": "C62",
   "status": "partial",
   "theorems": [
    "Verif.Asar.C62_header",
    "Verif.Asar.C62_tree_partial",
    "Verif.Asar.C62_once",
    "Verif.Asar.C62_violated"
   ],
   "note": "The code violates the claim for archives with links or files kept outside (C62_violated: they cannot be opened). Proved for every header and for every tree of files and folders."
  },
  {
   "property": "C63",
   "status": "proved",
   "theorems": [
    "Verif.Ogg.C63_streams",
    "Verif.Ogg.C63_reads",
    "Verif.Ogg.C63_names",
    "Verif.Ogg.C63_filename"
   ],
   "note": "Every sequence of pages of interleaved streams, with and without an end page. A stream number that is used again after its end is not well-formed (then the first stream is lost, see the example)."
  },
  {
   "property": "C64",
   "status": "partial",
   "theorems": [
    "Verif.Libarchive.C64_within_partial",
    "Verif.Libarchive.C64_violated",
    "Verif.Libarchive.C64_cache"
   ],
   "note": "The code violates the claim (C64_violated: a position behind the end is not kept). Proved for all histories of reads and seeks inside of the member, for every state of the cache before each call, every chunk size. libarchive itself is represented by the members it gives."
  },
  {
   "property": "C65",
   "status": "partial",
   "theorems": [
    "Verif.Libarchive.C65_violated",
    "Verif.Libarchive.C65_always"
   ],
   "note": "The code violates the claim (C65_violated: an empty member cannot be read); proved for every archive that this is always so (C65_always)."
  },
  {
   "property": "C66",
   "status": "partial",
   "theorems": [
    "Verif.SquashFS.C66_positions_partial",
    "Verif.SquashFS.C66_bytes_partial",
    "Verif.SquashFS.C66_violated",
    "Verif.SquashFS.C66_relative_violated"
   ],
   "note": "The code violates the claim (C66_violated: the position that is told ignores what was read; C66_relative_violated: relative seeks). Proved for all histories that seek to absolute positions before they read. The blocks the library gives are the pieces of the file."
  },
  {
   "property": "C67",
   "status": "proved",
   "theorems": [
    "Verif.SquashFS.C67_roundtrip",
    "Verif.SquashFS.C67_injective"
   ],
   "note": "Every pair of a block and an offset in the range of the format."
  },
  {
   "property": "C68",
   "status": "partial",
   "theorems": [
    "Verif.FatChain.C68_file_partial",
    "Verif.FatChain.C68_open_partial",
    "Verif.FatChain.C68_violated"
   ],
   "note": "The code violates the claim (C68_violated: a seek before the begin is accepted, and afterwards the begin of the file is somewhere else). Proved for all histories without negative positions, every chain and cluster size; positions are limited by the size of the file."
  },
  {
   "property": "C69",
   "status": "partial",
   "theorems": [
    "Verif.FatTable.C69_wide_partial",
    "Verif.FatTable.C69_odd_partial",
    "Verif.FatTable.C69_even",
    "Verif.FatTable.C69_violated"
   ],
   "note": "The code violates the claim for FAT12 (C69_violated, C69_even: the last entry is always lost if the number of entries is even). Proved for FAT16, FAT32 and odd numbers of entries."
  },
  {
   "property": "C70",
   "status": "partial",
   "theorems": [
    "Verif.FatChain.C70_chain",
    "Verif.FatChain.C70_stopped",
    "Verif.FatChain.C70_bad",
    "Verif.FatChain.C70_ends_partial",
    "Verif.FatChain.C70_violated",
    "Verif.FatChain.C70_range_violated"
   ],
   "note": "The code violates the claim (C70_violated: a cycle is followed forever; C70_range_violated: a chain that leaves the table ends as if it were complete). Proved for all chains without repetition, and exactly what the end and errors mean."
  },
  {
   "property": "C71",
   "status": "proved",
   "theorems": [
    "Verif.FatDates.C71_date",
    "Verif.FatDates.C71_time",
    "Verif.FatDates.C71_even",
    "Verif.FatDates.C71_total",
    "Verif.FatDates.C71_order",
    "Verif.FatDates.C71_calendar"
   ],
   "note": "Every date and time, and every number that can be stored; numbers that are no date give 1980-01-01."
  },
  {
   "property": "C72",
   "status": "proved",
   "theorems": [
    "Verif.FatNames.C72_sum",
    "Verif.FatNames.C72_name",
    "Verif.FatNames.C72_directory",
    "Verif.FatNames.C72_checksum"
   ],
   "note": "Every name of up to 20 pieces that does not end with U+0000 or U+FFFF, every order of the pieces, every directory. Names are UTF-16 code units."
  },
  {
   "property": "C73",
   "status": "partial",
   "theorems": [
    "Verif.Folder.C73_stat_partial",
    "Verif.Folder.C73_names",
    "Verif.Folder.C73_always",
    "Verif.Folder.C73_violated"
   ],
   "note": "The code violates the claim (C73_violated, C73_always: the entries of every listing have wrong link targets and paths). Proved: names, and sizes, times, modes and owners except for links that point outside."
  },
  {
   "property": "C74",
   "status": "proved",
   "theorems": [
    "Verif.Folder.C74_exact",
    "Verif.Folder.C74_count",
    "Verif.Folder.C74_lookup",
    "Verif.Folder.C74_absolute"
   ],
   "note": "Every tree of the host file system and every depth."
  },
  {
   "property": "C75",
   "status": "partial",
   "theorems": [
    "Verif.Git.C75_found",
    "Verif.Git.C75_exact",
    "Verif.Git.C75_partial",
    "Verif.Git.C75_listing",
    "Verif.Git.C75_violated"
   ],
   "note": "The code violates the claim (C75_violated: every path below a file is found as this file). Proved for all other paths; C75_exact says exactly what is found. Submodules are not modelled."
  },
  {
   "property": "C76",
   "status": "partial",
   "theorems": [
    "Verif.Rar.C76_last",
    "Verif.Rar.C76_names",
    "Verif.Rar.C76_lookup",
    "Verif.Rar.C76_consistent",
    "Verif.Rar.C76_agree_partial",
    "Verif.Rar.C76_clean",
    "Verif.Rar.C76_violated",
    "Verif.Rar.C76_order_violated",
    "Verif.Rar.C76_absolute_violated"
   ],
   "note": "The code violates the claim (C76_violated: folders without an entry are listed as files; C76_order_violated: also folders with an entry, if a file follows; C76_absolute_violated: absolute names are listed but not found). Proved: names of listings, exactly which entry a listing shows, lookups, and agreement if the own entry is the last one."
  },
  {
   "property": "C77",
   "status": "partial",
   "theorems": [
    "Verif.SevenZip.C77_exact",
    "Verif.SevenZip.C77_partial",
    "Verif.SevenZip.C77_violated"
   ],
   "note": "The code violates the claim (C77_violated: a chunk that is longer than everything before it loses its beginning). Proved for all other sequences of chunks; C77_exact says what is kept for all sequences."
  },
  {
   "property": "C78",
   "status": "partial",
   "theorems": [
    "Verif.Pdf.C78_attachments_partial",
    "Verif.Pdf.C78_numbers",
    "Verif.Pdf.C78_opens",
    "Verif.Pdf.C78_hidden",
    "Verif.Pdf.C78_missing",
    "Verif.Pdf.C78_found",
    "Verif.Pdf.C78_first",
    "Verif.Pdf.C78_violated",
    "Verif.Pdf.C78_images_violated"
   ],
   "note": "The code violates the claim (C78_violated: documents with only text are an error; C78_images_violated: only one of several images and texts is shown; C78_hidden: none behind attachments). Proved for documents without texts and images; the numbers are distinct and open the right object."
  },
  {
   "property": "C79",
   "status": "partial",
   "theorems": [
    "Verif.Sqlar.C79_children_partial",
    "Verif.Sqlar.C79_lookup",
    "Verif.Sqlar.C79_denormal_partial",
    "Verif.Sqlar.C79_violated",
    "Verif.Sqlar.C79_foreign_violated",
    "Verif.Sqlar.C79_absent_violated"
   ],
   "note": "The code violates the claim (C79_violated: a folder called [a]; C79_foreign_violated: a folder called a*; C79_absent_violated: paths that do not exist). Proved for paths without pattern characters, and for archives with names that are not normal. The operator GLOB of SQLite is modelled."
  },
  {
   "property": "C80",
   "status": "partial",
   "theorems": [
    "Verif.Hashing.C80_crc32",
    "Verif.Hashing.C80_hashes",
    "Verif.Hashing.C80_digits",
    "Verif.Hashing.C80_movie_partial",
    "Verif.Hashing.C80_movie_small",
    "Verif.Hashing.C80_movie_violated"
   ],
   "note": "The code violates the claim (C80_movie_violated: between 64 and 128 KiB the last words differ from the first and last 64 KiB). Proved for all algorithms that are fed in chunks, CRC-32 in particular, and for the movie hash of files of at least 128 KiB; C80_movie_small says what smaller files give. The algorithms of hashlib are arbitrary states with an update."
  },
  {
   "property": "C81",
   "status": "partial",
   "theorems": [
    "Verif.Parallelization.C81_number",
    "Verif.Parallelization.C81_list",
    "Verif.Parallelization.C81_default",
    "Verif.Parallelization.C81_errors_partial",
    "Verif.Parallelization.C81_violated"
   ],
   "note": "The code violates the claim for errors (C81_violated: a value that is no number is accepted if the same key follows). Proved: numbers, lists, the default, and errors for lists with distinct keys. Only ASCII digits."
  },
  {
   "property": "C82",
   "status": "partial",
   "theorems": [
    "Verif.MountPoint.C82_differs",
    "Verif.MountPoint.C82_usable",
    "Verif.MountPoint.C82_url",
    "Verif.MountPoint.C82_partial",
    "Verif.MountPoint.C82_violated",
    "Verif.MountPoint.C82_empty_violated"
   ],
   "note": "The code violates the claim (C82_violated: dir/.tar is mounted over dir/; C82_empty_violated: a URL without a name gives an empty mount point). Proved for all sources whose last component is more than a suffix, and that the mount point never is the source."
  },
  {
   "property": "C83",
   "status": "partial",
   "theorems": [
    "Verif.Command.C83_partial",
    "Verif.Command.C83_echo",
    "Verif.Command.C83_blank",
    "Verif.Command.C83_errors",
    "Verif.Command.C83_violated",
    "Verif.Command.C83_file",
    "Verif.Command.C83_untouched",
    "Verif.Command.C83_reported"
   ],
   "note": "The code violates the claim without arguments (C83_violated: the program name becomes the argument). Proved for every list of at least one argument, every delimiter, and every cutting into writes. The text codec is a parameter."
  },
  {
   "property": "C84",
   "status": "partial",
   "theorems": [
    "Verif.Suffix.C84_folder",
    "Verif.Suffix.C84_unchanged",
    "Verif.Suffix.C84_stripped",
    "Verif.Suffix.C84_longest_partial",
    "Verif.Suffix.C84_negation",
    "Verif.Suffix.C84_category",
    "Verif.Suffix.C84_violated"
   ],
   "note": "The code violates the claim (C84_violated: the name .gz becomes empty). Proved: the result is the name without a matching suffix of the table or the name itself, which suffix is taken, and what negated and category rules do. Character classes in patterns and case folding outside ASCII are not modelled."
  },
  {
   "property": "C85",
   "status": "partial",
   "theorems": [
    "Verif.IndexPaths.C85_order",
    "Verif.IndexPaths.C85_explicit",
    "Verif.IndexPaths.C85_beside",
    "Verif.IndexPaths.C85_outside_partial",
    "Verif.IndexPaths.C85_all_inside",
    "Verif.IndexPaths.C85_kept",
    "Verif.IndexPaths.C85_default",
    "Verif.IndexPaths.C85_relative",
    "Verif.IndexPaths.C85_violated",
    "Verif.IndexPaths.C85_memory_violated",
    "Verif.IndexPaths.C85_order_violated",
    "Verif.IndexPaths.C85_url_violated"
   ],
   "note": "The code violates the claim (C85_violated: relative folders in the mount point are kept; C85_memory_violated: an index in memory becomes a file; C85_order_violated: beside the archive and the home folder are replaced by the current folder). Proved: order, explicit paths and URLs, compressed defaults, and for absolute locations without links that nothing in the mount point remains."
  },
  {
   "property": "C86",
   "status": "partial",
   "theorems": [
    "Verif.Names.C86_violated",
    "Verif.Names.C86_included_partial"
   ],
   "note": "The code violates the claim (C86_violated: f.07 opened next to f.00 and f.01). Proved when the number of the file lies within the found sequence."
  },
  {
   "property": "C87",
   "status": "partial",
   "theorems": [
    "Verif.Names.C87_violated",
    "Verif.Names.C87_parts_listed_partial"
   ],
   "note": "The code violates the claim for symbolic links (C87_violated). Proved without links."
  },
  {
   "property": "C88",
   "status": "partial",
   "theorems": [
    "Verif.Tar.C88_violated",
    "Verif.Tar.C88_extend_partial"
   ],
   "note": "The code violates the claim when the last member is a nested TAR (C88_violated). Proved for archives indexed without recursion: the extended index equals the index of the whole archive."
  },
  {
   "property": "C89",
   "status": "partial",
   "theorems": [
    "Verif.Tar.C89_violated",
    "Verif.Tar.C89_file_partial"
   ],
   "note": "The code violates the claim (C89_violated: the newest version of the name is an empty folder). Proved: a version of the name that is a regular file with the contents of the member always exists."
  },
  {
   "property": "C90",
   "status": "partial",
   "theorems": [
    "Verif.Compose.C90_answer",
    "Verif.Compose.C90_state_partial",
    "Verif.Compose.C90_violated"
   ],
   "note": "The code violates the claim (C90_violated: the query creates the missing parent folders). Proved: the answer is right for every tree, and nothing changes if the parent folder exists."
  },
  {
   "property": "C91",
   "status": "proved",
   "theorems": [
    "Verif.Compose.C91_depth",
    "Verif.Compose.C91_kept",
    "Verif.Compose.C91_off"
   ],
   "note": "Every order of mount attempts on arbitrary paths. Opening an archive is an arbitrary partial function."
  },
  {
   "property": "C92",
   "status": "partial",
   "theorems": [
    "Verif.Compose.C92_listing_partial",
    "Verif.Compose.C92_inside_partial",
    "Verif.Compose.C92_names_partial",
    "Verif.Compose.C92_violated"
   ],
   "note": "The code violates the claim (C92_violated: a mount point moved into a folder that does not exist). Proved for folders for which the source lists something."
  },
  {
   "property": "C93",
   "status": "proved",
   "theorems": [
    "Verif.Compose.C93_lazy",
    "Verif.Compose.C93_lazy_is_eager"
   ],
   "note": "For archives mounted at their own path. Assumes what Regular states: nothing lies below an archive file in its own source, and recursion depths inside of one source do not decrease downwards."
  },
  {
   "property": "C94",
   "status": "partial",
   "theorems": [
    "Verif.Detect.C94_name_partial",
    "Verif.Detect.C94_violated",
    "Verif.Detect.C94_ends_violated"
   ],
   "note": "The code violates the claim (C94_violated: an extra field before the name is an error; C94_ends_violated: a name without end is read forever). Proved for all headers without extra field whose name ends."
  },
  {
   "property": "C95",
   "status": "partial",
   "theorems": [
    "Verif.Detect.C95_signature_partial",
    "Verif.Detect.C95_violated"
   ],
   "note": "The code violates the claim (C95_violated: an executable with an archive behind it is not recognised). Proved for signatures at the beginning."
  },
  {
   "property": "C96",
   "status": "partial",
   "theorems": [
    "Verif.Fat.C96_type_partial",
    "Verif.Fat.C96_violated"
   ],
   "note": "The code violates the claim (C96_violated: the sectors of the root directory are counted as data). Proved: exactly which volumes get the right type."
  },
  {
   "property": "C97",
   "status": "partial",
   "theorems": [
    "Verif.Fat.C97_sector_partial",
    "Verif.Fat.C97_violated"
   ],
   "note": "The code violates the claim (C97_violated: the beginning of an image, shorter than a sector). Proved for all files of at least 512 bytes."
  },
  {
   "property": "C98",
   "status": "partial",
   "theorems": [
    "Verif.Detect.C98_first_partial",
    "Verif.Detect.C98_violated"
   ],
   "note": "The code violates the claim (C98_violated: the search starts at the wrong place if the file is not at its beginning). Proved for files at position 0."
  },
  {
   "property": "C99",
   "status": "partial",
   "theorems": [
    "Verif.Ogg.C99_violated",
    "Verif.Ogg.C99_first_partial"
   ],
   "note": "The code violates the claim (C99_violated: repeated pages are accepted because the last number is never stored). Proved for a missing first page."
  },
  {
   "property": "C100",
   "status": "partial",
   "theorems": [
    "Verif.SharedFile.C100_path_partial",
    "Verif.SharedFile.C100_newest_partial",
    "Verif.SharedFile.C100_violated",
    "Verif.SharedFile.C100_resumes"
   ],
   "note": "The code violates the claim for file objects (C100_violated: opening an archive moves the file of the others). Proved for paths, and for file objects if only the newest archive is read. The seek callback is not modelled."
  },
  {
   "property": "C101",
   "status": "partial",
   "theorems": [
    "Verif.FatNames.C101_last_partial",
    "Verif.FatNames.C101_violated"
   ],
   "note": "The code violates the claim (C101_violated: with the first piece missing the end of the name is the name). Proved if the last piece is missing."
  },
  {
   "property": "C102",
   "status": "partial",
   "theorems": [
    "Verif.FatNames.C102_partial",
    "Verif.FatNames.C102_violated"
   ],
   "note": "The code violates the claim (C102_violated: leftover pieces with the same number are an error for the whole folder). Proved if no run of pieces has a number twice."
  },
  {
   "property": "C103",
   "status": "partial",
   "theorems": [
    "Verif.FatNames.C103_partial",
    "Verif.FatNames.C103_violated"
   ],
   "note": "The code violates the claim (C103_violated: clusters behind the one with the end mark are still read). Proved if they begin with an end mark too."
  },
  {
   "property": "C104",
   "status": "partial",
   "theorems": [
    "Verif.Tar.Offsets.C104_hangs",
    "Verif.Tar.Offsets.C104_violated",
    "Verif.Tar.Offsets.C104_ends_partial",
    "Verif.Tar.Offsets.C104_not_octal"
   ],
   "note": "The code violates the claim (C104_hangs, C104_violated: a folder with a negative size keeps the check at the same header for ever, without looking at the limits). Proved for all files without negative sizes, with a bound on the rounds."
  },
  {
   "property": "C105",
   "status": "partial",
   "theorems": [
    "Verif.Tar.Offsets.C105_violated",
    "Verif.Tar.Offsets.C105_recognised_partial",
    "Verif.Tar.Offsets.C105_sound"
   ],
   "note": "The code violates the claim (C105_violated: after the label of a volume the folder entry is skipped, as after every header that is not of a plain file). Proved for folder entries that are first or follow a plain file; no other archive is recognised."
  },
  {
   "property": "C106",
   "status": "proved",
   "theorems": [
    "Verif.Tar.Offsets.C106_offsets",
    "Verif.Tar.Offsets.C106_order"
   ],
   "note": "For archives that are laid out as their size fields and size records say."
  },
  {
   "property": "C107",
   "status": "proved",
   "theorems": [
    "Verif.Tar.Offsets.C107_size",
    "Verif.Tar.Offsets.C107_decimal"
   ],
   "note": ""
  },
  {
   "property": "C108",
   "status": "partial",
   "theorems": [
    "Verif.Tar.Incremental.C108_time_partial",
    "Verif.Tar.Incremental.C108_empty_partial",
    "Verif.Tar.Incremental.C108_path_partial",
    "Verif.Tar.Incremental.C108_long_partial",
    "Verif.Tar.Incremental.C108_violated",
    "Verif.Tar.Incremental.C108_all",
    "Verif.Tar.Incremental.C108_from_first",
    "Verif.Tar.Incremental.C108_ordinary"
   ],
   "note": "The code violates the claim (C108_violated: a prefix of one folder is removed although it is no time). Proved for times, empty prefixes, paths of several folders and members behind a long link, and which members of an archive are treated. Names are bytes."
  },
  {
   "property": "C109",
   "status": "proved",
   "theorems": [
    "Verif.Tar.Attributes.C109_base64",
    "Verif.Tar.Attributes.C109_quote",
    "Verif.Tar.Attributes.C109_attributes",
    "Verif.Tar.Attributes.C109_rows"
   ],
   "note": "Decoding of quoted names as UTF-8 is not modelled."
  },
  {
   "property": "C110",
   "status": "partial",
   "theorems": [
    "Verif.Tar.Attributes.C110_violated",
    "Verif.Tar.Attributes.C110_values",
    "Verif.Tar.Attributes.C110_indexed_partial"
   ],
   "note": "The code violates the claim (C110_violated: a Base64 value of one character). Proved for values of the alphabet with any other length; C110_values says exactly which of these are accepted."
  },
  {
   "property": "C111",
   "status": "partial",
   "theorems": [
    "Verif.Fuse.Stat.C111_violated",
    "Verif.Fuse.Stat.C111_ignored",
    "Verif.Fuse.Stat.C111_same_partial"
   ],
   "note": "The code violates the claim (C111_violated, C111_ignored: the merged statistics are overwritten, so that the overlay has no effect). Proved where both sides report the same."
  },
  {
   "property": "C112",
   "status": "partial",
   "theorems": [
    "Verif.Fuse.Stat.C112_violated",
    "Verif.Fuse.Stat.C112_exact_partial"
   ],
   "note": "The code violates the claim (C112_violated: the fragment size is raised to 256 KiB and the number of blocks is not adjusted). C112_exact_partial says exactly when the size is right."
  },
  {
   "property": "C113",
   "status": "partial",
   "theorems": [
    "Verif.Fuse.Stat.C113_violated",
    "Verif.Fuse.Stat.C113_time_partial",
    "Verif.Fuse.Stat.C113_blocks"
   ],
   "note": "The code violates the claim for times after the year 2116 (C113_violated: a second too early). Proved for all times before and for the number of blocks. Doubles are modelled as natural numbers rounded to 53 binary digits, ties to even; times of fractions of a second are not modelled."
  },
  {
   "property": "C114",
   "status": "partial",
   "theorems": [
    "Verif.IndexedFolder.C114_found_partial",
    "Verif.IndexedFolder.C114_absent_partial",
    "Verif.IndexedFolder.C114_listed_partial",
    "Verif.IndexedFolder.C114_order",
    "Verif.IndexedFolder.C114_sorted",
    "Verif.IndexedFolder.C114_escape",
    "Verif.IndexedFolder.C114_violated"
   ],
   "note": "The code violates the claim for names that are not UTF-8 (C114_violated: they are stored with escapes, and the escaped name is opened). Proved for all trees whose names are UTF-8. Entries that vanish while the index is made are not modelled."
  },
  {
   "property": "C115",
   "status": "proved",
   "theorems": [
    "Verif.FatSource.C115_found",
    "Verif.FatSource.C115_listed",
    "Verif.FatSource.C115_folder",
    "Verif.FatSource.C115_open"
   ],
   "note": "The entries of a folder are given with decoded names (see C72, C101-C103 for how they are parsed); keeping parsed folders in memory is not modelled."
  },
  {
   "property": "C116",
   "status": "partial",
   "theorems": [
    "Verif.FatSource.C116_violated",
    "Verif.FatSource.C116_exists_partial"
   ],
   "note": "The code violates the claim (C116_violated: a path below a file raises ENOTDIR). Proved for all paths that do not lead through a file."
  },
  {
   "property": "C117",
   "status": "proved",
   "theorems": [
    "Verif.FatSource.C117_shown",
    "Verif.FatSource.C117_first"
   ],
   "note": "The code page is a function on bytes; the method writes 0xE5 into the stored name, which is not modelled as nothing reads it afterwards except the method itself."
  },
  {
   "property": "C118",
   "status": "partial",
   "theorems": [
    "Verif.IndexLoad.C118_violated",
    "Verif.IndexLoad.C118_partial",
    "Verif.IndexLoad.C118_used"
   ],
   "note": "The code violates the claim (C118_violated: archives that have grown are accepted). Proved: archives that became smaller, that have another time if times are verified, or that have no path are refused; an index for the present archive is used. TAR archives have their own check, see C23 and C24."
  },
  {
   "property": "C119",
   "status": "partial",
   "theorems": [
    "Verif.IndexLoad.C119_violated",
    "Verif.IndexLoad.C119_verified_partial"
   ],
   "note": "The code violates the claim (C119_violated: a mount without verification stores the new time in the old index). Proved for histories in which every mount verifies. Archives that are not TARs, one place for the index; interrupted mounts are not modelled."
  },
  {
   "property": "C120",
   "status": "partial",
   "theorems": [
    "Verif.IndexLoad.C120_violated",
    "Verif.IndexLoad.C120_search_partial",
    "Verif.IndexLoad.C120_readOnly"
   ],
   "note": "The code violates the claim (C120_violated: after an invalid compressed index, the contents of this one are judged in place of the next candidate, which is then removed). Proved where no compressed index is invalid. Downloads are not modelled."
  },
  {
   "property": "C121",
   "status": "partial",
   "theorems": [
    "Verif.IndexLoad.C121_violated",
    "Verif.IndexLoad.C121_reported_partial",
    "Verif.IndexLoad.C121_stored_partial"
   ],
   "note": "The code violates the claim (C121_violated: every mount stores its own arguments in the index). Proved as long as all mounts before had the same arguments. Arguments are compared as a whole."
  },
  {
   "property": "C122",
   "status": "partial",
   "theorems": [
    "Verif.IndexLoad.C122_violated",
    "Verif.IndexLoad.C122_kept_partial"
   ],
   "note": "The code violates the claim (C122_violated: any database without the tables of an index is removed, as the flag readOnly is ignored). C122_kept_partial says exactly which files stay."
  },
  {
   "property": "C123",
   "status": "partial",
   "theorems": [
    "Verif.IndexLoad.C123_never",
    "Verif.IndexLoad.C123_violated",
    "Verif.IndexLoad.C123_tuple_partial",
    "Verif.IndexLoad.C123_newer_partial"
   ],
   "note": "The code violates the claim (C123_never: the comparison is called with a row and always fails). Proved what the comparison gives for versions."
  },
  {
   "property": "C124",
   "status": "proved",
   "theorems": [
    "Verif.SeekPoints.C124_roundtrip",
    "Verif.SeekPoints.C124_found_again",
    "Verif.SeekPoints.C124_own_format",
    "Verif.SeekPoints.C124_blocks"
   ],
   "note": "Libraries are modelled by what they export and import; that they import their own exports is a hypothesis. Failing exports are not modelled. See C06 and C07 for the blobs."
  },
  {
   "property": "C125",
   "status": "partial",
   "theorems": [
    "Verif.SeekPoints.C125_violated",
    "Verif.SeekPoints.C125_partial",
    "Verif.SeekPoints.C125_methods_partial"
   ],
   "note": "The code violates the claim (C125_violated: raw deflate data raise NotImplementedError). C125_partial and C125_methods_partial say exactly which compressions fail."
  },
  {
   "property": "C126",
   "status": "partial",
   "theorems": [
    "Verif.Detect.C126_violated",
    "Verif.Detect.C126_partial",
    "Verif.Detect.C126_libarchive_violated",
    "Verif.Detect.C126_raw"
   ],
   "note": "The code violates the claim (C126_violated: small gzip files with rapidgzip as the only library). Proved for all other files if libarchive is not prioritised. Whether libraries can read a file is an arbitrary function of the format."
  },
  {
   "property": "C127",
   "status": "proved",
   "theorems": [
    "Verif.Detect.C127_choice"
   ],
   "note": "The slow-drive check and the number of threads are not modelled."
  },
  {
   "property": "C128",
   "status": "proved",
   "theorems": [
    "Verif.Detect.C128_zlib"
   ],
   "note": "The check reads two bytes from the position of the file."
  },
  {
   "property": "C129",
   "status": "partial",
   "theorems": [
    "Verif.Tar.C129_accepted_partial",
    "Verif.Tar.C129_deep_violated",
    "Verif.Tar.C129_violated"
   ],
   "note": "The code violates the claim (C129_violated, C129_deep_violated: rows in archives that are nested twice never pass, as the recursion depth is taken for a flag). Proved for all rows at the top and, without path transformations and for proper names, in archives directly in the archive. Owners, times and sparse members are not modelled."
  },
  {
   "property": "C130",
   "status": "proved",
   "theorems": [
    "Verif.Tar.C130_sound"
   ],
   "note": "For the columns that are modelled; the others are compared in the same way."
  },
  {
   "property": "C131",
   "status": "partial",
   "theorems": [
    "Verif.Tar.C131_violated",
    "Verif.Tar.C131_partial"
   ],
   "note": "The code violates the claim (C131_violated: StopIteration if the header was overwritten with zeros). Proved where there is a header or nothing at the place of every row. Errors of Python other than those of the tarfile module are not modelled."
  },
  {
   "property": "C132",
   "status": "partial",
   "theorems": [
    "Verif.Zip.C132_partial",
    "Verif.Zip.C132_dos",
    "Verif.Zip.C132_types",
    "Verif.Zip.C132_violated"
   ],
   "note": "The code violates the claim (C132_violated: pipes and devices are shown as regular files; the setuid, setgid and sticky bits and empty permissions are changed too). Proved for regular files, folders and links with permissions; C132_types says what is shown for all entries."
  },
  {
   "property": "C133",
   "status": "partial",
   "theorems": [
    "Verif.Zip.C133_time",
    "Verif.Zip.C133_partial",
    "Verif.Zip.C133_violated",
    "Verif.Zip.C133_first_violated",
    "Verif.Zip.C133_link_violated"
   ],
   "note": "The code violates the claim (C133_violated: entries without a date raise ValueError; C133_first_violated: a first file with an unknown compression is taken for a missing password). Proved otherwise. zipfile is modelled by the entries and contents it gives."
  },
  {
   "property": "C134",
   "status": "partial",
   "theorems": [
    "Verif.Zip.C134_partial",
    "Verif.Zip.C134_found",
    "Verif.Zip.C134_refused",
    "Verif.Zip.C134_violated"
   ],
   "note": "The code violates the claim (C134_violated: with a plain file in front the password is never set). Proved if the first file that is not empty is encrypted."
  },
  {
   "property": "C135",
   "status": "proved",
   "theorems": [
    "Verif.Zip.C135_open",
    "Verif.Zip.C135_reach",
    "Verif.Zip.C135_only"
   ],
   "note": "For archives in which no two entries share a local header. Names are those that zipfile decodes."
  },
  {
   "property": "C136",
   "status": "partial",
   "theorems": [
    "Verif.Html.C136_partial",
    "Verif.Html.C136_violated",
    "Verif.Html.C136_other_violated"
   ],
   "note": "The code violates the claim (C136_violated: names in upper case are not found, although the parser gives them in lower case; C136_other_violated: nothing is found after a name with an underscore or an unquoted value with a percent sign). Proved for names and unquoted values of HTML 2.0 in lower case."
  },
  {
   "property": "C137",
   "status": "partial",
   "theorems": [
    "Verif.Html.C137_read",
    "Verif.Html.C137_partial",
    "Verif.Html.C137_violated"
   ],
   "note": "The code violates the claim (C137_violated: the span in bytes is used as a number of characters, so what follows a value that is not ASCII is read too). Proved for values in ASCII with arbitrary text around; C137_read says what is read for all values. html.parser is not modelled, and neither are files with carriage returns."
  },
  {
   "property": "C138",
   "status": "partial",
   "theorems": [
    "Verif.Html.C138_partial",
    "Verif.Html.C138_base64",
    "Verif.Html.C138_other",
    "Verif.Html.C138_violated"
   ],
   "note": "The code violates the claim (C138_violated: octets above 127 cannot be read). Proved for octets of ASCII and for base64. html.unescape, the codecs and base64 are parameters with laws."
  },
  {
   "property": "C139",
   "status": "partial",
   "theorems": [
    "Verif.Html.C139_partial",
    "Verif.Html.C139_other",
    "Verif.Html.C139_violated"
   ],
   "note": "The code violates the claim (C139_violated: file objects that close themselves at the end of a with block are closed by the check of the format). Proved for paths and other objects."
  },
  {
   "property": "C140",
   "status": "partial",
   "theorems": [
    "Verif.SevenZipSource.C140_partial",
    "Verif.SevenZipSource.C140_found",
    "Verif.SevenZipSource.C140_violated",
    "Verif.SevenZipSource.C140_twice_violated"
   ],
   "note": "The code violates the claim (C140_violated: an archive without times cannot be mounted; C140_twice_violated: of several members with the same path only the last one can be reached). Proved for the last member with each path if all have times. py7zr is modelled by the list and contents it gives; links are shown as files, as py7zr does not tell them apart."
  },
  {
   "property": "C141",
   "status": "partial",
   "theorems": [
    "Verif.Passwords.C141_partial",
    "Verif.Passwords.C141_refused_partial",
    "Verif.Passwords.C141_single",
    "Verif.Passwords.C141_violated",
    "Verif.Passwords.C141_wrong_violated"
   ],
   "note": "The code violates the claim (C141_violated: with a wrong password for an encrypted list of members an empty folder is mounted; C141_wrong_violated: after a plain first file any password is accepted). Proved if the list or the first file is encrypted, and if only the right password is given. rarfile is modelled as the comments in the code describe it."
  },
  {
   "property": "C142",
   "status": "partial",
   "theorems": [
    "Verif.Passwords.C142_partial",
    "Verif.Passwords.C142_refused_partial",
    "Verif.Passwords.C142_violated",
    "Verif.Passwords.C142_unused_violated"
   ],
   "note": "The code violates the claim (C142_violated: with a wrong password for an encrypted list of members an empty folder is mounted; C142_unused_violated: after a plain first file no password is set). Proved if the list or the first file that is not empty is encrypted. py7zr is modelled as the comments in the code describe it."
  },
  {
   "property": "C143",
   "status": "proved",
   "theorems": [
    "Verif.Passwords.C143_plain",
    "Verif.Passwords.C143_encrypted",
    "Verif.Passwords.C143_refused"
   ],
   "note": "Opening a database with a key succeeds exactly if it is encrypted with this key."
  },
  {
   "property": "C144",
   "status": "partial",
   "theorems": [
    "Verif.Compose.C144_found",
    "Verif.Compose.C144_hidden",
    "Verif.Compose.C144_partial",
    "Verif.Compose.C144_git",
    "Verif.Compose.C144_repository",
    "Verif.Compose.C144_violated"
   ],
   "note": "The code violates the claim (C144_violated: a source that reports one version for every path hides the files that only earlier sources have). Proved which files are found and which are hidden; C144_partial covers lists where only the first source always reports one version."
  },
  {
   "property": "C145",
   "status": "partial",
   "theorems": [
    "Verif.Adaptor.C145_bare",
    "Verif.Adaptor.C145_character",
    "Verif.Adaptor.C145_mode",
    "Verif.Adaptor.C145_violated"
   ],
   "note": "The code violates the claim (C145_violated: the prefix is removed with an index instead of a slice, so that ratar://foo opens a path of one character). Proved for paths without the prefix; what is opened for others is stated in C145_character."
  },
  {
   "property": "C146",
   "status": "partial",
   "theorems": [
    "Verif.Adaptor.C146_partial",
    "Verif.Adaptor.C146_bare_names",
    "Verif.Adaptor.C146_names",
    "Verif.Adaptor.C146_missing",
    "Verif.Adaptor.C146_missing_names",
    "Verif.Adaptor.C146_type",
    "Verif.Adaptor.C146_violated"
   ],
   "note": "The code violates the claim (C146_violated: for sources that list names only, the attributes are looked up without the folder and listed under doubled paths). Proved for sources that list attributes, for lists without details and for missing folders."
  },
  {
   "property": "C147",
   "status": "partial",
   "theorems": [
    "Verif.Adaptor.C147_object",
    "Verif.Adaptor.C147_remote",
    "Verif.Adaptor.C147_partial",
    "Verif.Adaptor.C147_violated"
   ],
   "note": "The code violates the claim (C147_violated: a protocol without target options raises a TypeError). Proved for all other combinations of options."
  },
  {
   "property": "C148",
   "status": "proved",
   "theorems": [
    "Verif.Fsspec.C148_list",
    "Verif.Fsspec.C148_lookup",
    "Verif.Fsspec.C148_quoted",
    "Verif.Fsspec.C148_http_list",
    "Verif.Fsspec.C148_http_lookup",
    "Verif.Fsspec.C148_prefix",
    "Verif.Fsspec.C148_no_prefix"
   ],
   "note": "Proved for all styles of paths of the library, for Dropbox and for HTTP. That the library answers as the server is (`Serves`, `ServesHttp`) is a hypothesis. Of folders over HTTP only the type is known."
  },
  {
   "property": "C149",
   "status": "partial",
   "theorems": [
    "Verif.Fsspec.C149_raised",
    "Verif.Fsspec.C149_partial",
    "Verif.Fsspec.C149_violated",
    "Verif.Fsspec.C149_file_violated"
   ],
   "note": "The code violates the claim (C149_violated: listing raises an error instead of giving None if the remote side does not have the folder; C149_file_violated: a file is listed as an empty folder). Proved for folders that the remote side has."
  },
  {
   "property": "C150",
   "status": "partial",
   "theorems": [
    "Verif.Ext4.C150_lookup",
    "Verif.Ext4.C150_partial",
    "Verif.Ext4.C150_file",
    "Verif.Ext4.C150_missing",
    "Verif.Ext4.C150_exists",
    "Verif.Ext4.C150_violated"
   ],
   "note": "The code violates the claim (C150_violated: one name that cannot be decoded makes the folder unlistable). Proved if all names of the folder can be decoded. The library ext4 is modelled by its inodes and entries."
  },
  {
   "property": "C151",
   "status": "partial",
   "theorems": [
    "Verif.Ext4.C151_partial",
    "Verif.Ext4.C151_violated"
   ],
   "note": "The code violates the claim (C151_violated: symbolic links are shown without target). Proved for everything else than symbolic links."
  },
  {
   "property": "C152",
   "status": "partial",
   "theorems": [
    "Verif.GitUrl.C152_partial",
    "Verif.GitUrl.C152_violated",
    "Verif.GitUrl.C152_folder",
    "Verif.GitUrl.C152_file",
    "Verif.GitUrl.C152_refused",
    "Verif.GitUrl.C152_url"
   ],
   "note": "The code violates the claim (C152_violated: a path with an at sign is taken for a reference). Proved for parts that cannot be mistaken; what is mounted, opened and refused is proved for all trees. Paths that lead through a file open the file (C75)."
  },
  {
   "property": "C153",
   "status": "partial",
   "theorems": [
    "Verif.GitUrl.C153_partial",
    "Verif.GitUrl.C153_reference",
    "Verif.GitUrl.C153_option",
    "Verif.GitUrl.C153_detached",
    "Verif.GitUrl.C153_refused",
    "Verif.GitUrl.C153_violated",
    "Verif.GitUrl.C153_time_violated"
   ],
   "note": "The code violates the claim (C153_violated: init.defaultBranch of the user is taken for the name of a branch of the repository; C153_time_violated: files of another commit have the time of the commit that is checked out). Proved without this option, and for the tree of references."
  },
  {
   "property": "C154",
   "status": "proved",
   "theorems": [
    "Verif.Url.C154_webdav",
    "Verif.Url.C154_auth",
    "Verif.Url.C154_dropbox",
    "Verif.Url.C154_ssh"
   ],
   "note": "The match of the regular expression is modelled by a function, as each of its parts can match in one way only."
  },
  {
   "property": "C155",
   "status": "proved",
   "theorems": [
    "Verif.Url.C155_opened",
    "Verif.Url.C155_ssh",
    "Verif.Url.C155_protocol",
    "Verif.Url.C155_library"
   ],
   "note": "The remote side is given by what the library tells about paths. Git URLs are covered by C152."
  },
  {
   "property": "C156",
   "status": "partial",
   "theorems": [
    "Verif.Control.C156_inside_partial",
    "Verif.Control.C156_others_stay",
    "Verif.Control.C156_never_started",
    "Verif.Control.C156_arguments",
    "Verif.Control.C156_violated"
   ],
   "note": "The code violates the claim (C156_violated: as the returned list is not empty, the command ends before the other process is started). Proved for all paths in the running mount; C156_arguments shows that the list of the others is right."
  },
  {
   "property": "C157",
   "status": "partial",
   "theorems": [
    "Verif.Control.C157_relative_partial",
    "Verif.Control.C157_only",
    "Verif.Control.C157_absolute",
    "Verif.Control.C157_violated",
    "Verif.Control.C157_refused",
    "Verif.Control.C157_started"
   ],
   "note": "The code violates the claim (C157_violated: an absolute mount point in the running mount is not shortened, so that the source appears below the mount point at the whole path). Proved for relative mount points."
  },
  {
   "property": "C158",
   "status": "partial",
   "theorems": [
    "Verif.Depth.C158_plain_partial",
    "Verif.Depth.C158_compressed_partial",
    "Verif.Depth.C158_compressed_less",
    "Verif.Depth.C158_negative",
    "Verif.Depth.C158_zero",
    "Verif.Depth.C158_not_deeper",
    "Verif.Depth.C158_violated",
    "Verif.Depth.C158_compressed_violated"
   ],
   "note": "The code violates the claim (C158_violated: a negative depth lets TARs fail; C158_compressed_violated: with depth 0 a compressed TAR is shown as one file). Proved for TARs without compression and for compressed ones without --recursion-depth. Other backends, which are tried after a failure, are not modelled."
  },
  {
   "property": "C159",
   "status": "partial",
   "theorems": [
    "Verif.Options.C159_partial",
    "Verif.Options.C159_spaced",
    "Verif.Options.C159_uses",
    "Verif.Options.C159_violated"
   ],
   "note": "The code violates the claim (C159_violated: an item that begins with a comma moves it to the item before). Proved for items that do not, and for lists with spaces after the separators."
  },
  {
   "property": "C160",
   "status": "proved",
   "theorems": [
    "Verif.Options.C160_passwords",
    "Verif.Options.C160_first",
    "Verif.Options.C160_trailing",
    "Verif.Options.C160_none"
   ],
   "note": "A file that ends with a line feed adds the empty password (C160_trailing)."
  },
  {
   "property": "C161",
   "status": "proved",
   "theorems": [
    "Verif.Options.C161_default",
    "Verif.Options.C161_argument",
    "Verif.Options.C161_backends"
   ],
   "note": "JSON is modelled by two functions that are inverse to each other."
  },
  {
   "property": "C162",
   "status": "proved",
   "theorems": [
    "Verif.Sources.C162_accepted",
    "Verif.Sources.C162_repeated",
    "Verif.Sources.C162_refused",
    "Verif.Sources.C162_mount_point"
   ],
   "note": "The check of one source is a function of the host."
  },
  {
   "property": "C163",
   "status": "partial",
   "theorems": [
    "Verif.Unmount.C163_status",
    "Verif.Unmount.C163_others",
    "Verif.Unmount.C163_works_partial",
    "Verif.Unmount.C163_list_partial",
    "Verif.Unmount.C163_violated",
    "Verif.Unmount.C163_debug_violated",
    "Verif.Unmount.C163_none"
   ],
   "note": "The code violates the claim (C163_violated: os.path.ismount is False for a mount whose process was killed, so that the mount stays and the exit status is 0; C163_debug_violated: with debug messages and without fusermount, the command raises). Proved for mount points that answer."
  },
  {
   "property": "C164",
   "status": "proved",
   "theorems": [
    "Verif.Sources.C164_options",
    "Verif.Sources.C164_added"
   ],
   "note": ""
  },
  {
   "property": "C165",
   "status": "partial",
   "theorems": [
    "Verif.LibarchiveRows.C165_partial",
    "Verif.LibarchiveRows.C165_newest",
    "Verif.LibarchiveRows.C165_contents_partial",
    "Verif.LibarchiveRows.C165_violated",
    "Verif.LibarchiveRows.C165_hard_link_target",
    "Verif.LibarchiveRows.C165_target_violated",
    "Verif.LibarchiveRows.C165_special"
   ],
   "note": "The code violates the claim (C165_violated: a hard link is shown as a symbolic link; C165_target_violated: its target is relative to the archive and leads elsewhere from a subfolder; special files are shown as regular ones, C165_special). Proved for regular files, folders and symbolic links."
  },
  {
   "property": "C166",
   "status": "partial",
   "theorems": [
    "Verif.LibarchiveRows.C166_mounted_partial",
    "Verif.LibarchiveRows.C166_name",
    "Verif.LibarchiveRows.C166_violated",
    "Verif.LibarchiveRows.C166_empty",
    "Verif.LibarchiveRows.C166_delegate"
   ],
   "note": "The code violates the claim (C166_violated: one name that cannot be decoded lets the whole archive fail). Proved if all names can be decoded; a TAR without members is refused (C166_empty)."
  },
  {
   "property": "C167",
   "status": "proved",
   "theorems": [
    "Verif.LibarchiveRows.C167_name",
    "Verif.LibarchiveRows.C167_found"
   ],
   "note": "The mapping to small letters is a function that neither makes nor removes dots."
  },
  {
   "property": "C168",
   "status": "partial",
   "theorems": [
    "Verif.SquashFSRows.C168_partial",
    "Verif.SquashFSRows.C168_transform",
    "Verif.SquashFSRows.C168_only",
    "Verif.SquashFSRows.C168_special",
    "Verif.SquashFSRows.C168_owner",
    "Verif.SquashFSRows.C168_violated"
   ],
   "note": "The code violates the claim (C168_violated: a character device is shown as a symbolic link, because the bits of regular files are added to its type; C168_special gives the types of all special files). Proved for files, folders and symbolic links; C168_only covers the absence of other files for all images. Owners are never shown (C168_owner). The folders of the image are a tree given by the library."
  },
  {
   "property": "C169",
   "status": "proved",
   "theorems": [
    "Verif.EmbeddedRows.C169_extension",
    "Verif.EmbeddedRows.C169_once",
    "Verif.EmbeddedRows.C169_hash",
    "Verif.EmbeddedRows.C169_shown"
   ],
   "note": "The hash, the table of media types and the mapping to small letters are parameters. Two files do not begin at the same place of the text."
  },
  {
   "property": "C170",
   "status": "partial",
   "theorems": [
    "Verif.EmbeddedRows.C170_partial",
    "Verif.EmbeddedRows.C170_fails",
    "Verif.EmbeddedRows.C170_violated"
   ],
   "note": "The code violates the claim (C170_violated: a data URL with a letter that is not ASCII and no charset lets the whole file fail). Proved if all embedded files can be decoded."
  },
  {
   "property": "C171",
   "status": "partial",
   "theorems": [
    "Verif.EmbeddedRows.C171_partial",
    "Verif.EmbeddedRows.C171_empty",
    "Verif.EmbeddedRows.C171_violated"
   ],
   "note": "The code violates the claim (C171_violated: an empty attachment is listed but cannot be opened). Proved for files that are not empty. How the library finds the objects is not modelled."
  },
  {
   "property": "C172",
   "status": "proved",
   "theorems": [
    "Verif.EmbeddedRows.C172_candidates"
   ],
   "note": "Attributes of a tag have different names, as HTML requires."
  },
  {
   "property": "C173",
   "status": "partial",
   "theorems": [
    "Verif.Direct.C173_violated",
    "Verif.Direct.C173_removed",
    "Verif.Direct.C173_partial",
    "Verif.Direct.C173_all_partial",
    "Verif.Direct.C173_object",
    "Verif.Direct.C173_backends"
   ],
   "note": "The code violates the claim (C173_violated, C173_backends: every SQLite database that is neither an archive nor a finished index is removed when somebody tries to mount it; C173_removed says exactly when). Proved for indexes and files that are no databases, and for file objects. Other backends are assumed to read only. See also C122."
  },
  {
   "property": "C174",
   "status": "partial",
   "theorems": [
    "Verif.Writable.C174_small",
    "Verif.Writable.C174_partial",
    "Verif.Writable.C174_no_places",
    "Verif.Writable.C174_fails",
    "Verif.Writable.C174_violated"
   ],
   "note": "The code violates the claim (C174_violated, C174_fails: if no place can be used, the only connection is closed and large or compressed archives cannot be indexed). Proved if some place can be used, without any places, and for small archives. Parent folders, xattrs and compression offsets are not part of the rows here."
  },
  {
   "property": "C175",
   "status": "partial",
   "theorems": [
    "Verif.Writable.C175_partial",
    "Verif.Writable.C175_error",
    "Verif.Writable.C175_violated"
   ],
   "note": "The code violates the claim for the memory (C175_violated: it is only used if a file named \":memory:\" can be written to the working directory). The rest is proved. Creation of parent folders is not modelled."
  },
  {
   "property": "C176",
   "status": "partial",
   "theorems": [
    "Verif.Writable.C176_partial",
    "Verif.Writable.C176_written",
    "Verif.Writable.C176_violated"
   ],
   "note": "The code violates the claim (C176_violated, C176_written: compressed archives and those with more rows than the limit get an index on disk although writeIndex is false). Proved for all others."
  },
  {
   "property": "C177",
   "status": "partial",
   "theorems": [
    "Verif.Compose.Attrs.C177_restored",
    "Verif.Compose.Attrs.C177_partial",
    "Verif.Compose.Attrs.C177_mount_partial",
    "Verif.Compose.Attrs.C177_made",
    "Verif.Compose.Attrs.C177_violated",
    "Verif.Compose.Attrs.C177_inner_violated"
   ],
   "note": "The code violates the claim (C177_violated: the root folder below an auto-mount layer shows no attributes; C177_inner_violated: with an auto-mount layer over a version layer no entry does). Proved for stacks in which get_mount_source does not change what it returns (Sound); that metadata is restored is proved for all stacks (C177_restored)."
  },
  {
   "property": "C178",
   "status": "partial",
   "theorems": [
    "Verif.Compose.Split.C178_partial",
    "Verif.Compose.Split.C178_violated",
    "Verif.Compose.Split.C178_right_violated",
    "Verif.Compose.Split.C178_inside_partial",
    "Verif.Compose.Split.C178_kept",
    "Verif.Compose.Split.C178_inside_violated"
   ],
   "note": "The code violates the claim in three ways. C178_violated: inside of nested archives parts are not found, because the folder is listed with the path of the whole mount. C178_right_violated: parts of another folder are taken instead. C178_inside_violated: without stripRecursiveTarExtension the joined file keeps the name of a first part and is never opened (C178_kept). Proved for parts in the root source and for names that are stripped."
  },
  {
   "property": "C179",
   "status": "partial",
   "theorems": [
    "Verif.Compose.Split.C179_partial",
    "Verif.Compose.Split.C179_violated",
    "Verif.Compose.Split.C179_lost_violated"
   ],
   "note": "The code violates the claim (C179_violated: a folder named like a second part ends mounting with an exception, because parts are opened outside of the try; C179_lost_violated: a listed part that is not found does so, too). Proved if no file has the name of a first part."
  },
  {
   "property": "C180",
   "status": "partial",
   "theorems": [
    "Verif.Compose.Split.C180_partial",
    "Verif.Compose.Split.C180_only",
    "Verif.Compose.Split.C180_violated"
   ],
   "note": "The code violates the claim (C180_violated: static libraries like z.a are taken for the first part of a split file and are not mounted). Proved for all other extensions. Which archives can be opened is a parameter."
  },
  {
   "property": "C181",
   "status": "proved",
   "theorems": [
    "Verif.Fuse.TarMount.C181_read",
    "Verif.Fuse.TarMount.C181_attributes",
    "Verif.Fuse.TarMount.C181_folder",
    "Verif.Fuse.TarMount.C181_absent",
    "Verif.Fuse.TarMount.C181_root"
   ],
   "note": "From the bytes of the archive (headers are parsed by a given codec) to the bytes of a read. Sparse members, devices, folders with a link name, times, owners, the write overlay and recursive mounting are not part of it."
  },
  {
   "property": "C182",
   "status": "proved",
   "theorems": [
    "Verif.Fuse.TarMount.C182_list",
    "Verif.Fuse.TarMount.C182_nodup"
   ],
   "note": "Same model as C181. Only the names are part of it; readdir uses list_mode, whose names are those of list."
  },
  {
   "property": "C183",
   "status": "partial",
   "theorems": [
    "Verif.InputFile.C183_criterion",
    "Verif.InputFile.C183_partial",
    "Verif.InputFile.C183_violated",
    "Verif.InputFile.C183_only",
    "Verif.InputFile.C183_url",
    "Verif.InputFile.C183_url_refused",
    "Verif.InputFile.C183_folder",
    "Verif.InputFile.C183_absent",
    "Verif.InputFile.C183_source",
    "Verif.InputFile.C183_builtin",
    "Verif.InputFile.C183_libarchive",
    "Verif.InputFile.C183_sqlar"
   ],
   "note": "The code violates the claim (C183_violated: an encrypted SQLAR whose name does not end with .sqlar is refused). Proved for all other formats, with the exact criterion (C183_criterion, C183_only) and for URLs and folders. What detect_formats finds and whether data is random are parameters."
  },
  {
   "property": "C184",
   "status": "partial",
   "theorems": [
    "Verif.InputFile.C184_never",
    "Verif.InputFile.C184_violated",
    "Verif.InputFile.C184_partial"
   ],
   "note": "The code violates the claim: no error ever names a module (C184_never), because the code for it is unreachable. Proved: the file is refused only if every backend for its formats lacks a module (C184_partial)."
  },
  {
   "property": "C185",
   "status": "partial",
   "theorems": [
    "Verif.InputFile.C185_never",
    "Verif.InputFile.C185_violated"
   ],
   "note": "The code violates the claim: the backend is looked up as indexed_std, the KeyError is swallowed, and there is never a warning (C185_never). Nothing else of the claim is left to prove."
  },
  {
   "property": "C186",
   "status": "proved",
   "theorems": [
    "Verif.Random.C186_range",
    "Verif.Random.C186_few",
    "Verif.Random.C186_text",
    "Verif.Random.C186_progression",
    "Verif.Random.C186_spread",
    "Verif.Random.C186_order",
    "Verif.Random.C186_three"
   ],
   "note": "With real numbers instead of floating point numbers."
  },
  {
   "property": "C187",
   "status": "partial",
   "theorems": [
    "Verif.Loaded.C187_partial",
    "Verif.Loaded.C187_tar",
    "Verif.Loaded.C187_violated"
   ],
   "note": "The code violates the claim for TARs: with a loaded index hashes are never computed (C187_violated, C187_tar). Proved for all other archives with an index."
  },
  {
   "property": "C188",
   "status": "partial",
   "theorems": [
    "Verif.Loaded.C188_unchanged",
    "Verif.Loaded.C188_hashes_partial",
    "Verif.Loaded.C188_tar_partial",
    "Verif.Loaded.C188_seek_violated",
    "Verif.Loaded.C188_violated"
   ],
   "note": "The code violates the claim: missing hashes (C188_violated) and seek points of another library (C188_seek_violated) are written to the read-only database, which raises. Exactly when it can be used is C188_hashes_partial and C188_tar_partial; that it is never changed is C188_unchanged. bzip2 and Zstandard are not modelled here."
  },
  {
   "property": "C189",
   "status": "partial",
   "theorems": [
    "Verif.Loaded.C189_lost",
    "Verif.Loaded.C189_partial",
    "Verif.Loaded.C189_again",
    "Verif.Loaded.C189_violated"
   ],
   "note": "The code violates the claim if the process is killed: nothing is committed before the end (C189_violated, C189_lost). Proved for exceptions, and that further runs give the same hashes. That SQLite may write parts of a transaction earlier is not modelled."
  },
  {
   "property": "C190",
   "status": "proved",
   "theorems": [
    "Verif.Fuse.TarFiles.C190_read",
    "Verif.Fuse.TarFiles.C190_attributes",
    "Verif.Fuse.TarFiles.C190_list",
    "Verif.Fuse.TarFiles.C190_others"
   ],
   "note": "The header functions of CPython 3.11 are modelled (Verif.Tar.Header) instead of being a parameter. Sparse members, devices, owners and times are not part of it; bytes that are not UTF-8 are decoded by an arbitrary function; no path below a file, at most 128 hard links."
  },
  {
   "property": "C191",
   "status": "partial",
   "theorems": [
    "Verif.Tar.Damage.C191_detected_partial",
    "Verif.Tar.Damage.C191_before_partial",
    "Verif.Tar.Damage.C191_violated"
   ],
   "note": "The code violates the claim (C191_violated): the damaged member and everything behind it is silently missing. Proved: the header is refused or means the same (C191_detected_partial); what is in front is shown right, and nothing else (C191_before_partial). Without --ignore-zeros."
  },
  {
   "property": "C192",
   "status": "partial",
   "theorems": [
    "Verif.Tar.Damage.C192_headers_partial",
    "Verif.Tar.Damage.C192_data_partial",
    "Verif.Tar.Damage.C192_violated"
   ],
   "note": "The code violates the claim if the cut is inside of the headers of a member (C192_violated, C192_headers_partial). Proved for cuts inside of data (C192_data_partial)."
  },
  {
   "property": "C193",
   "status": "partial",
   "theorems": [
    "Verif.Overlay.OverTar.C193_history_partial",
    "Verif.Overlay.OverTar.C193_violated"
   ],
   "note": "The same operations fail as in C46 (C46_violated and the hypothesis Works), e.g. a symbolic link created in a folder that is only in the archive (C193_violated). Owners, times and the special folders of versions are not part of it; hard links to folders are excluded."
  },
  {
   "property": "C194",
   "status": "partial",
   "theorems": [
    "Verif.Overlay.CommitTar.C194_files_partial",
    "Verif.Overlay.CommitTar.C194_folders_partial",
    "Verif.Overlay.CommitTar.C194_violated"
   ],
   "note": "The code violates the claim (C194_violated: removing the only file of a folder without a member of its own removes the folder; see also C49). Proved for files without what the overlay refuses and what the commit gets wrong, and for everything if each folder has a member. Archives with hard links or .. in names are excluded. What GNU tar does is specified."
  },
  {
   "property": "C195",
   "status": "partial",
   "theorems": [
    "Verif.FatImage.C195_violated",
    "Verif.FatImage.C195_unclean",
    "Verif.FatImage.C195_missing",
    "Verif.FatImage.C195_folder",
    "Verif.FatImage.C195_file_partial",
    "Verif.FatImage.C195_mounts"
   ],
   "note": "The code violates the claim for seeks before the begin of a file (C195_violated, see C68). Proved: the mount and all paths; histories without such seeks (C195_file_partial). Hypotheses: 12-bit tables have room for another entry (C69), the number of clusters tells the type also to the code (C96), names are unambiguous and slots behind the end mark begin with 0 (C103). Code page, spaces and time zone are parameters."
  },
  {
   "property": "C196",
   "status": "proved",
   "theorems": [
    "Verif.Fuse.ArMount.C196_mounts",
    "Verif.Fuse.ArMount.C196_read",
    "Verif.Fuse.ArMount.C196_attributes",
    "Verif.Fuse.ArMount.C196_folder",
    "Verif.Fuse.ArMount.C196_absent",
    "Verif.Fuse.ArMount.C196_list",
    "Verif.Fuse.ArMount.C196_nodup",
    "Verif.Fuse.ArMount.C196_encoding"
   ],
   "note": "Names in headers or in front of data; tables of long names are C61, which is violated. self.transform is the identity. Paths with a part that ends in \".versions\" are excluded where something must not exist. The time and owner of the root are not modelled."
  },
  {
   "property": "C197",
   "status": "proved",
   "theorems": [
    "Verif.Fuse.AsarMount.C197_mounts",
    "Verif.Fuse.AsarMount.C197_read",
    "Verif.Fuse.AsarMount.C197_file",
    "Verif.Fuse.AsarMount.C197_folder",
    "Verif.Fuse.AsarMount.C197_absent",
    "Verif.Fuse.AsarMount.C197_list",
    "Verif.Fuse.AsarMount.C197_nodup",
    "Verif.Fuse.AsarMount.C197_packed"
   ],
   "note": "json.load is a parameter; links and unpacked files fail the mount (C62_violated). The names in the header are proper names. self.transform is the identity. Paths with a part that ends in \".versions\" are excluded where something must not exist."
  },
  {
   "property": "C198",
   "status": "partial",
   "theorems": [
    "Verif.Fuse.TarNested.C198_read_partial",
    "Verif.Fuse.TarNested.C198_attributes_partial",
    "Verif.Fuse.TarNested.C198_list",
    "Verif.Fuse.TarNested.C198_others",
    "Verif.Fuse.TarNested.C198_violated"
   ],
   "note": "The code violates the claim: hard links of inner archives are resolved in the outermost archive (C198_violated). Proved if there are no hard links in inner archives. Lists and absence are proved without this restriction. A member ../x of an inner archive is shown outside of the folder of its archive; the specification of places says so. AutoMountLayer, times and owners are not included; the archive ends with at least one zero byte."
  },
  {
   "property": "C199",
   "status": "partial",
   "theorems": [
    "Verif.Fuse.ThinMount.C199_mounts",
    "Verif.Fuse.ThinMount.C199_link_partial",
    "Verif.Fuse.ThinMount.C199_list_partial",
    "Verif.Fuse.ThinMount.C199_absent",
    "Verif.Fuse.ThinMount.C199_violated"
   ],
   "note": "The code violates the claim (C199_violated: a file src/a.o is shown as a link named by the position of its path in the table, such as /0 or /9). Proved with this name for every thin archive: the target of the link is the path of the file, the attributes are those in the header, opening it fails, the root lists exactly these links and nothing else exists. Archives without a table of names are not covered."
  },
  {
   "property": "C200",
   "status": "partial",
   "theorems": [
    "Verif.Overlay.C200_move_partial",
    "Verif.Overlay.C200_paths_partial",
    "Verif.Overlay.C200_attributes_partial",
    "Verif.Overlay.C200_violated",
    "Verif.Overlay.C200_part_violated",
    "Verif.Overlay.C200_failed_violated",
    "Verif.Overlay.C200_hidden_violated",
    "Verif.Overlay.C200_owner_violated"
   ],
   "note": "The code violates the claim: a folder of the archive becomes an empty file (C200_violated), only the files that were written before are moved (C200_part_violated), a failed rename brings back what was deleted at the new path (C200_failed_violated), moved files are hidden by old deletions below the new path (C200_hidden_violated), and owners set by chown are lost (C200_owner_violated). Proved for folders that are only in the overlay, if nothing was deleted below the new path; the attributes under the conditions in C200_attributes_partial."
  },
  {
   "property": "C201",
   "status": "partial",
   "theorems": [
    "Verif.Fuse.ZipMount.C201_mounts",
    "Verif.Fuse.ZipMount.C201_read",
    "Verif.Fuse.ZipMount.C201_refused",
    "Verif.Fuse.ZipMount.C201_attributes",
    "Verif.Fuse.ZipMount.C201_link",
    "Verif.Fuse.ZipMount.C201_folder",
    "Verif.Fuse.ZipMount.C201_absent",
    "Verif.Fuse.ZipMount.C201_list",
    "Verif.Fuse.ZipMount.C201_nodup",
    "Verif.Fuse.ZipMount.C201_plain",
    "Verif.Fuse.ZipMount.C201_encrypted",
    "Verif.Fuse.ZipMount.C201_violated"
   ],
   "note": "The code violates the part about several entries with the same path if their data is not in the order of the central directory: the one whose header comes last in the file is shown (C201_violated). Everything else is proved for archives whose dates exist, whose entries for the same path are in the order of their headers, and whose entries with others below them are folders; zipfile is not modelled, an entry is given with its contents. Restrictions of modes, dates and passwords are those of C132, C133 and C134."
  },
  {
   "property": "C202",
   "status": "proved",
   "theorems": [
    "Verif.Fuse.SquashMount.C202_mounts",
    "Verif.Fuse.SquashMount.C202_read",
    "Verif.Fuse.SquashMount.C202_attributes",
    "Verif.Fuse.SquashMount.C202_link",
    "Verif.Fuse.SquashMount.C202_absent",
    "Verif.Fuse.SquashMount.C202_list",
    "Verif.Fuse.SquashMount.C202_nodup",
    "Verif.Fuse.SquashMount.C202_whole"
   ],
   "note": "PySquashfsImage is not modelled: an image is given by the tree of its inodes, the inode at each position, and what each block decompresses to. Owners are always shown as 0 (see C168_owner), and special files are shown with other types (see C168_violated); the claim is about files, folders and symbolic links. The mount is without recursion and without a transformation of the paths."
  },
  {
   "property": "C203",
   "status": "partial",
   "theorems": [
    "Verif.Fuse.LibarchiveMount.C203_mounts",
    "Verif.Fuse.LibarchiveMount.C203_read_partial",
    "Verif.Fuse.LibarchiveMount.C203_refused",
    "Verif.Fuse.LibarchiveMount.C203_attributes_partial",
    "Verif.Fuse.LibarchiveMount.C203_link",
    "Verif.Fuse.LibarchiveMount.C203_folder",
    "Verif.Fuse.LibarchiveMount.C203_absent",
    "Verif.Fuse.LibarchiveMount.C203_list",
    "Verif.Fuse.LibarchiveMount.C203_nodup",
    "Verif.Fuse.LibarchiveMount.C203_violated"
   ],
   "note": "The code violates the claim for empty files: reading one is an error instead of the empty string (C203_violated). For all other files the claim about reads is proved for every history of calls. Attributes are proved for files, folders and symbolic links, without times before 1970 and parts of seconds; hard links and special files are shown otherwise (C165). Archives with names that cannot be decoded cannot be mounted (C166). libarchive is not modelled: it gives the members one after the other with their contents. The archive is given by its path; C100 is about shared file objects."
  },
  {
   "property": "C204",
   "status": "partial",
   "theorems": [
    "Verif.Fuse.OldVersions.C204_read_partial",
    "Verif.Fuse.OldVersions.C204_attributes_partial",
    "Verif.Fuse.OldVersions.C204_list",
    "Verif.Fuse.OldVersions.C204_violated",
    "Verif.Fuse.OlderMembers.C204_ar_read",
    "Verif.Fuse.OlderMembers.C204_ar_attributes",
    "Verif.Fuse.OlderMembers.C204_ar_list",
    "Verif.Fuse.OlderMembers.C204_zip_read",
    "Verif.Fuse.OlderMembers.C204_zip_attributes",
    "Verif.Fuse.OlderMembers.C204_zip_list",
    "Verif.Fuse.OlderMembers.C204_libarchive_read_partial",
    "Verif.Fuse.OlderMembers.C204_libarchive_list"
   ],
   "note": "The code violates the claim for versions that are hard links: `<path>.versions/<k>` is looked up without resolving them, so it has no type and no bytes (C204_violated, C204_statement). For all other members of TAR archives the claim is proved from the packed files on, also for AR and ZIP archives and for files that are not empty in archives of libarchive (C203). Nothing may be packed at or below the path of the versions folder."
  },
  {
   "property": "C205",
   "status": "proved",
   "theorems": [
    "Verif.Fuse.TarOver.C205_split_same",
    "Verif.Fuse.TarOver.C205_blocks_same",
    "Verif.Fuse.TarOver.C205_split_read",
    "Verif.Fuse.TarOver.C205_blocks_read",
    "Verif.Fuse.TarOver.C205_split_version"
   ],
   "note": "Any file object whose reads continue the content (they may be short, and are empty only at the end) gives the same answers; instances for RawJoinedFileFromFactory, with the lazily opened parts of C113, and for BlockParallelReader with its cache and prefetching (C50). The buffer of io.BufferedReader around joined parts is not modelled; the decompression library is assumed to be right; members are not sparse."
  },
  {
   "property": "C206",
   "status": "partial",
   "theorems": [
    "Verif.Detect.Threads.C206_violated",
    "Verif.Detect.Threads.C206_xz_alone",
    "Verif.Detect.Threads.C206_partial"
   ],
   "note": "The code violates the claim: the block boundaries are asked from the compressed file, which has none, instead of from the decompressed one, so XZ files are never decompressed in parallel (C206_violated, C206_xz_alone). zlib and deflate files are always decompressed with one thread, too. Proved for bzip2 and gzip, from the text of the option on."
  },
  {
   "property": "C207",
   "status": "partial",
   "theorems": [
    "Verif.Fuse.TarLife.C207_history_partial",
    "Verif.Fuse.TarLife.C207_unloaded",
    "Verif.Fuse.TarLife.C207_rejected",
    "Verif.Fuse.TarLife.C207_unkilled_partial",
    "Verif.Fuse.TarLife.C207_windows",
    "Verif.Fuse.TarLife.C207_windows_extend",
    "Verif.Fuse.TarLife.C207_unnoticed_violated",
    "Verif.Fuse.TarLife.C207_extends",
    "Verif.Fuse.TarLife.C207_violated"
   ],
   "note": "Violated for the code: a process killed after all rows are stored but before the statistics are (four statements), or between dropping and storing the metadata of an extended index (two statements), or in the window of C18, leaves an index that is accepted without any statistics, so members that are appended later are never noticed (C207_violated, C207_unnoticed_violated; the windows are exactly C207_windows and C207_windows_extend). Proved: for all histories whose kills do not leave such an index the next mount shows exactly the packed files (C207_history_partial), in particular without kills (C207_unkilled_partial), through creation, use, extension and removal of the index; and large archives are indeed extended instead of indexed again (C207_extends). The archive is uncompressed and on a local file system, and other programs do not change packed members."
  },
  {
   "property": "C208",
   "status": "proved",
   "theorems": [
    "Verif.Detect.Extension.C208_extension",
    "Verif.Detect.Extension.C208_libarchive",
    "Verif.Detect.Extension.C208_preferred",
    "Verif.Detect.Extension.C208_tar",
    "Verif.Detect.Extension.C208_nameless"
   ],
   "note": "The tables of formats and backends are those of the code, with the dependencies installed. Checks other than those of AR, RAR and TAR are given as functions, and so is whether the chosen backend can open the file (C57 states what happens if it cannot). Formats that share an extension with an earlier one (.img with FAT and EXT4) are in the table for the earlier one only."
  },
  {
   "property": "C209",
   "status": "partial",
   "theorems": [
    "Verif.Fuse.UnionMount.C209_read_partial",
    "Verif.Fuse.UnionMount.C209_attributes_partial",
    "Verif.Fuse.UnionMount.C209_folder",
    "Verif.Fuse.UnionMount.C209_absent",
    "Verif.Fuse.UnionMount.C209_root",
    "Verif.Fuse.UnionMount.C209_list",
    "Verif.Fuse.UnionMount.C209_violated",
    "Verif.Fuse.UnionMount.C209_dot_shown",
    "Verif.Fuse.UnionMount.C209_dot_violated",
    "Verif.Fuse.UnionMount.C209_versions_partial",
    "Verif.Fuse.UnionMount.C209_versions_list"
   ],
   "note": "The code violates the claim for hard links: the target is looked up in all archives again, so a link shows the file with which a later archive replaced its target (C209_violated), and a link whose target was packed with a name that begins with ./ is not resolved at all and shown as a file without type, data and size (C209_dot_shown, C209_dot_violated). Proved: for archives that agree about what is a folder (C29 and C30 are about those that do not) paths show the file on top with its data and attributes, also after following hard links over all archives with other names. Versions that are hard links show no data (C204_violated), so C209_versions_partial is for the others, and for paths at or below whose versions folder nothing is packed. Attributes in listings are those of C31. Members are not sparse."
  },
  {
   "property": "C210",
   "status": "partial",
   "theorems": [
    "Verif.Overlay.Controlled.C210_refused",
    "Verif.Overlay.Controlled.C210_elsewhere",
    "Verif.Overlay.Controlled.C210_kept_partial",
    "Verif.Overlay.Controlled.C210_folder_partial",
    "Verif.Overlay.Controlled.C210_violated",
    "Verif.Overlay.Controlled.C210_lost_violated"
   ],
   "note": "The code violates the claim: rename has no check. Moving .ratarmount-control/output away makes it disappear from the control folder (C210_violated), and a file moved to .ratarmount-control/command is hidden behind the control interface (C210_lost_violated). Proved for all other calls, and for histories whose renames stay away from the folder. The paths that the kernel gives are made of names, without . and .. in them. Hard links are among the calls."
  },
  {
   "property": "C211",
   "status": "partial",
   "theorems": [
    "Verif.Fuse.SevenZipMount.C211_mounts",
    "Verif.Fuse.SevenZipMount.C211_untimed",
    "Verif.Fuse.SevenZipMount.C211_read_partial",
    "Verif.Fuse.SevenZipMount.C211_attributes",
    "Verif.Fuse.SevenZipMount.C211_folder",
    "Verif.Fuse.SevenZipMount.C211_absent",
    "Verif.Fuse.SevenZipMount.C211_list",
    "Verif.Fuse.SevenZipMount.C211_once",
    "Verif.Fuse.SevenZipMount.C211_violated",
    "Verif.Fuse.SevenZipMount.C211_transform_violated"
   ],
   "note": "The code violates the claim: a piece that is longer than everything before it loses its beginning, so reads give wrong contents (C211_violated), and with --transform a folder is taken for a hard link to what has its old path (C211_transform_violated). Proved without --transform if no piece but the first is longer than everything before it, for archives whose members have times and different places (C140 is about the others). All folders of the archive are such hard links to themselves; that they are shown as folders is proved by following the lookups of all versions. Calls are made one after the other: nothing protects the archive object from extractions at the same time. py7zr itself is not modelled."
  },
  {
   "property": "C212",
   "status": "partial",
   "theorems": [
    "Verif.Fuse.FolderMount.C212_read",
    "Verif.Fuse.FolderMount.C212_attributes",
    "Verif.Fuse.FolderMount.C212_outward",
    "Verif.Fuse.FolderMount.C212_absent",
    "Verif.Fuse.FolderMount.C212_list",
    "Verif.Fuse.FolderMount.C212_version",
    "Verif.Fuse.FolderMount.C212_view",
    "Verif.Fuse.FolderMount.C212_walk_partial",
    "Verif.Fuse.FolderMount.C212_violated"
   ],
   "note": "The code violates the claim: a link out of the mounted folder to another folder is shown as a folder, and the relative links in that folder count as links of the mount, so out/l can lead to another file than on the host (C212_violated). Proved for all paths that stay in the folder, also with .. and links in them (C212_walk_partial), and for links out of the folder at the end of a path (C212_outward, C212_read). The host is a model of path_resolution(7): at most 40 links, no permissions, no mount points. Within one call the host does not change, and the kernel caches nothing. Listings give the names; the attributes in them are those of C73."
  },
  {
   "property": "C213",
   "status": "partial",
   "theorems": [
    "Verif.Fuse.SqlarMount.C213_read",
    "Verif.Fuse.SqlarMount.C213_attributes",
    "Verif.Fuse.SqlarMount.C213_folder",
    "Verif.Fuse.SqlarMount.C213_absent",
    "Verif.Fuse.SqlarMount.C213_list_partial",
    "Verif.Fuse.SqlarMount.C213_modes",
    "Verif.Fuse.SqlarMount.C213_version",
    "Verif.Fuse.SqlarMount.C213_violated",
    "Verif.Fuse.SqlarMount.C213_alone_violated",
    "Verif.Fuse.SqlarMount.C213_listing_violated",
    "Verif.Fuse.SqlarMount.C213_versions_violated",
    "Verif.Fuse.SqlarMount.C213_behind_violated"
   ],
   "note": "The code violates the claim: if only a file was added to the archive, but not its folder, the folder does not exist and the file cannot be reached (C213_violated, C213_alone_violated), a folder whose name has a pattern character such as [ shows other files than its own (C213_listing_violated), and versions folders and the versions of folders are listed as empty because list never gives None (C213_versions_violated). Reading behind the end of a stored file raises (C213_behind_violated); the kernel does not do it. Proved for tables with unique names that do not go up with .., whose folders are in the table (for listings), for folder names without pattern characters or archives with some name that is not normal. SQLite and rapidgzip are modelled by what they have to give; encrypted archives and Python before 3.11 are not modelled."
  },
  {
   "property": "C214",
   "status": "partial",
   "theorems": [
    "Verif.Fuse.RarMount.C214_read",
    "Verif.Fuse.RarMount.C214_attributes",
    "Verif.Fuse.RarMount.C214_implied",
    "Verif.Fuse.RarMount.C214_absent",
    "Verif.Fuse.RarMount.C214_list",
    "Verif.Fuse.RarMount.C214_modes",
    "Verif.Fuse.RarMount.C214_links_partial",
    "Verif.Fuse.RarMount.C214_violated",
    "Verif.Fuse.RarMount.C214_opened_violated",
    "Verif.Fuse.RarMount.C214_windows_violated",
    "Verif.Fuse.RarMount.C214_versions_violated"
   ],
   "note": "The code violates the claim: hard links and copies are shown as symbolic links whose target is the path in the archive, so in folders they lead nowhere (C214_violated), although opening them directly would give the contents (C214_opened_violated); the attributes of Windows are used as if they were a Unix mode, so files have strange permissions and files and folders that are not indexed have another type (C214_windows_violated); and the versions folder is empty, with the only version at 0 (C214_versions_violated). The types in listings are those of C76, which is violated for folders without entries. Proved for archives whose paths are made of names and different, whose modes have no other type than that of the entry, and for hard links in the root folder. rarfile is modelled by what it has to give; encryption is not modelled."
  },
  {
   "property": "C215",
   "status": "partial",
   "theorems": [
    "Verif.Fuse.FolderIndex.C215_attributes",
    "Verif.Fuse.FolderIndex.C215_absent",
    "Verif.Fuse.FolderIndex.C215_list",
    "Verif.Fuse.FolderIndex.C215_read",
    "Verif.Fuse.FolderIndex.C215_gone",
    "Verif.Fuse.FolderIndex.C215_irregular",
    "Verif.Fuse.FolderIndex.C215_first",
    "Verif.Fuse.FolderIndex.C215_snapshot",
    "Verif.Fuse.FolderIndex.C215_current_partial",
    "Verif.Fuse.FolderIndex.C215_violated",
    "Verif.Fuse.FolderIndex.C215_unverified_violated",
    "Verif.Fuse.FolderIndex.C215_size_violated"
   ],
   "note": "The code violates the claim: whether an index is outdated is decided by the time and size of the mounted folder itself, which stay the same when something is added in a subfolder, so a later mount does not show it, although all mounts verify times (C215_violated); a mount without --verify-mtime stores the new time with the old index, so later mounts with --verify-mtime do not even see new files directly in the mounted folder (C215_unverified_violated); and sizes are those of the index, also when files grow while they are mounted (C215_size_violated). Proved: attributes, listings and what is missing are those of the host when the index was made, open and read lead to the host as it is now (C215_read, C215_gone), every mount shows one state as a whole (C215_snapshot), and the present one if the time of the mounted folder itself tells all states apart (C215_current_partial). Names that are not UTF-8 are the subject of C114. Changes of the host while the index is made, times before 1970 and parts of seconds are not modelled, and the index is not in the folder."
  },
  {
   "property": "C216",
   "status": "partial",
   "theorems": [
    "Verif.Fuse.HtmlMount.C216_mounts",
    "Verif.Fuse.HtmlMount.C216_read",
    "Verif.Fuse.HtmlMount.C216_attributes",
    "Verif.Fuse.HtmlMount.C216_folder",
    "Verif.Fuse.HtmlMount.C216_absent",
    "Verif.Fuse.HtmlMount.C216_list",
    "Verif.Fuse.HtmlMount.C216_hash",
    "Verif.Fuse.HtmlMount.C216_address",
    "Verif.Fuse.HtmlMount.C216_skipped",
    "Verif.Fuse.HtmlMount.C216_undecodable",
    "Verif.Fuse.HtmlMount.C216_violated",
    "Verif.Fuse.HtmlMount.C216_hidden_violated",
    "Verif.Fuse.HtmlMount.C216_same_violated"
   ],
   "note": "The code violates the claim: if one file was saved from an address that is a folder of the address of another one, then the earlier of the two is not shown: either its folder is shown as a file, so that it cannot be reached (C216_violated), or a folder is shown instead of it (C216_hidden_violated); and of two different files with the same address only the later one is shown under it (C216_same_violated). Proved for data URLs of ASCII that can be decoded, in attributes as in C136 and C137 or in text, such that no file is below another one; for the others see C136, C137, C138 and C170. The parser html.parser is represented by the candidates that it reports, and the libraries for decoding by functions. Files with carriage returns are not modelled."
  },
  {
   "property": "C217",
   "status": "partial",
   "theorems": [
    "Verif.HtmlPlaces.C217_sound",
    "Verif.HtmlPlaces.C217_written",
    "Verif.HtmlPlaces.C217_once",
    "Verif.HtmlPlaces.C217_css_partial",
    "Verif.HtmlPlaces.C217_quoted",
    "Verif.HtmlPlaces.C217_plain_partial",
    "Verif.HtmlPlaces.C217_places",
    "Verif.HtmlPlaces.C217_bytes",
    "Verif.HtmlPlaces.C217_beyond",
    "Verif.HtmlPlaces.C217_violated"
   ],
   "note": "handle_data and the change of places are modelled in full; html.parser itself is not, and it is assumed to give the text as it is in the file (true for style sheets and scripts). Data URLs with white space after the parenthesis, which CSS allows, are not found (C217_violated). A data URL that overlaps with an earlier match of the same pattern is only covered as far as C217_css_partial and C217_quoted say. Inline style attributes are not looked at by handle_data."
  },
  {
   "property": "C218",
   "status": "partial",
   "theorems": [
    "Verif.Fuse.OggMount.C218_ranges",
    "Verif.Fuse.OggMount.C218_mounts",
    "Verif.Fuse.OggMount.C218_read",
    "Verif.Fuse.OggMount.C218_attributes",
    "Verif.Fuse.OggMount.C218_absent",
    "Verif.Fuse.OggMount.C218_list",
    "Verif.Fuse.OggMount.C218_default",
    "Verif.Fuse.OggMount.C218_refused",
    "Verif.Fuse.OggMount.C218_violated"
   ],
   "note": "The code violates the last sentence: if the last page is cut off, the file has the size of the complete page, but the rest cannot be read (C218_violated). Proved for files that consist of pages as in C63 with at most 26 further bytes. With --transform, the streams have to be at different places, none below another one; without it nothing is assumed (C218_default). Of json only lists of pairs of numbers are modelled, and a StenciledFile is represented by its contents (C01, C63)."
  },
  {
   "property": "C219",
   "status": "partial",
   "theorems": [
    "Verif.Fuse.PdfMount.C219_mounts",
    "Verif.Fuse.PdfMount.C219_read",
    "Verif.Fuse.PdfMount.C219_attributes",
    "Verif.Fuse.PdfMount.C219_absent",
    "Verif.Fuse.PdfMount.C219_list",
    "Verif.Fuse.PdfMount.C219_empty_violated",
    "Verif.Fuse.PdfMount.C219_violated",
    "Verif.Fuse.PdfMount.C219_text_violated"
   ],
   "note": "The code violates the claim: documents with text but without attachments and images cannot be mounted (C219_violated), texts are not shown if there is an attachment (C219_text_violated), and empty attachments cannot be opened (C219_empty_violated). Proved for documents with an attachment of the whole document, whatever texts and images they have, and for documents with neither texts nor images; the attachments have to be at different places, none below another one. pypdf is represented by what it reads."
  },
  {
   "property": "C220",
   "status": "partial",
   "theorems": [
    "Verif.Fuse.SelfBind.C220_same",
    "Verif.Fuse.SelfBind.C220_plain",
    "Verif.Fuse.SelfBind.C220_outward",
    "Verif.Fuse.SelfBind.C220_outward_covered",
    "Verif.Fuse.SelfBind.C220_open_outward",
    "Verif.Fuse.SelfBind.C220_open",
    "Verif.Fuse.SelfBind.C220_list",
    "Verif.Fuse.SelfBind.C220_same_contents",
    "Verif.Fuse.SelfBind.C220_violated",
    "Verif.Fuse.SelfBind.C220_back_violated"
   ],
   "note": "The code violates the claim: a link to a folder above is shown as that folder, and a lookup of the mount point in it never returns (C220_violated); neither does a lookup of a link that leads out of the folder and back in, or of a link to a file of the folder whose target has more '..' than the link is deep although it passes another link (C220_back_violated). Proved: whatever returns is right (C220_same, C220_same_contents); files, folders, other links and missing names return (C220_plain, C220_open, C220_list); links that lead out return exactly if they lead neither through the mount point nor back (C220_outward, C220_outward_covered, C220_open_outward). os.path.realpath is that of Python before 3.13; later versions ask for absolute paths, so that all links that lead out hang. Write overlays over the same folder are not modelled."
  },
  {
   "property": "C221",
   "status": "partial",
   "theorems": [
    "Verif.Recreate.C221_options",
    "Verif.Recreate.C221_keep",
    "Verif.Recreate.C221_keep_exact",
    "Verif.Recreate.C221_keep_partial",
    "Verif.Recreate.C221_recreate",
    "Verif.Recreate.C221_default",
    "Verif.Recreate.C221_default_made",
    "Verif.Recreate.C221_violated"
   ],
   "note": "The code violates the claim: an index that is mounted itself is opened without the option (it is given as readOnly, but the parameter is readOnlyIndex), so that an unfinished one is removed although --no-recreate-index was given (C221_violated, see also C122 and C173). Proved if this backend is not tried (C221_keep_partial), and for each other backend (C221_keep, C221_keep_exact, C221_recreate, C221_default, C221_default_made). What backends think of an index and the creation of an index are arbitrary functions (see C118 to C121 and C174 to C176); compressed indexes are not extracted (C120); what is written into an index after it was loaded is in other claims."
  }
 ]
}
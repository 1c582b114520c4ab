{"id": "C01", "title": "Restore returns exactly what was backed up", "statement": "After any sequence of successful backups into one repository, restoring as of the time of any one of those backups yields exactly the set of paths, the file types and attributes, and the regular-file contents that the source had at that backup.", "quantifier": "every history of source trees (any number of backups, any change of type between dir/file/other/missing per path), every backup time in it", "why_tests_cant": "Needs all histories of all lengths and every pattern of diff/snapshot/missing/dir increments; tests sample a few.", "anchors": ["src/rdiffbackup/locations/_repo_shadow.py:_RepoIncrementITRB", "src/rdiffbackup/locations/_repo_shadow.py:_RestoreFile.set_relevant_incs", "src/rdiffbackup/locations/_repo_shadow.py:_RestoreFile.get_restore_fp", "src/rdiffbackup/locations/increment.py:make_increment"]}
{"id": "C02", "title": "Restore time selection", "statement": "Restoring as of an arbitrary time T uses the newest backup not later than T, or the oldest backup when T precedes all of them.", "quantifier": "every non-empty set of backup times and every T", "why_tests_cant": "Boundary behaviour for all times and sets.", "anchors": ["src/rdiffbackup/locations/_repo_shadow.py:RepoShadow._set_restore_time", "src/rdiffbackup/locations/_repo_shadow.py:RepoShadow.get_increment_times"]}
{"id": "C03", "title": "A backup never changes what older backups restore to", "statement": "Running another backup on a repository leaves the restore result of every earlier backup time unchanged.", "quantifier": "every repository reached by any history, every new source tree, every earlier time", "why_tests_cant": "Quantifies over all histories and all earlier times.", "anchors": ["src/rdiffbackup/locations/_repo_shadow.py:RepoShadow.apply", "src/rdiffbackup/locations/increment.py:make_increment"]}
{"id": "C04", "title": "Interrupted backup is undone by regress at every crash point", "statement": "If an incremental backup is interrupted after any number of its file-system steps, regressing brings mirror, increments and metadata back so that every earlier backup restores as before the interrupted session.", "quantifier": "every prior history, every new source tree, every crash point between atomic file-system steps (also inside the writing of an increment)", "why_tests_cant": "The crash points are unbounded in number and depend on the tree.", "anchors": ["src/rdiffbackup/locations/_repo_shadow.py:RepoShadow.regress", "src/rdiffbackup/locations/_repo_shadow.py:_RepoRegressITRB", "src/rdiffbackup/locations/_repo_shadow.py:_RegressFile", "src/rdiffbackup/locations/_repo_shadow.py:_RepoIncrementITRB.fast_process_file"]}
{"id": "C05", "title": "Regress can itself be interrupted and repeated", "statement": "If regress is interrupted at any step, running regress again reaches the same final repository as an uninterrupted regress.", "quantifier": "every crash point of the backup and every crash point of the regress, any number of interrupted regress attempts", "why_tests_cant": "Nested crash points cannot be enumerated by tests.", "anchors": ["src/rdiffbackup/locations/_repo_shadow.py:RepoShadow.regress", "src/rdiffbackup/locations/_repo_shadow.py:RepoShadow._regress_rbdir", "src/rdiffbackup/locations/_repo_shadow.py:_RepoRegressITRB"]}
{"id": "C06", "title": "An interrupted incremental backup is always detected", "statement": "From the moment an incremental backup starts writing until it completes, the repository holds two current-mirror markers, after completion exactly one, whose time is the time of the last completed backup; the next run detects the interrupted state.", "quantifier": "every history and crash point", "why_tests_cant": "All crash points.", "anchors": ["src/rdiffbackup/locations/_repo_shadow.py:RepoShadow.touch_current_mirror", "src/rdiffbackup/locations/_repo_shadow.py:RepoShadow.remove_current_mirror", "src/rdiffbackup/locations/_repo_shadow.py:RepoShadow.needs_regress", "src/rdiffbackup/actions/backup.py"]}
{"id": "C07", "title": "Metadata history is exact", "statement": "The file listing with attributes recorded for any past backup is read back exactly as written at that backup, although older listings are stored as diffs against newer ones.", "quantifier": "every history of metadata listings of any length, every past backup time", "why_tests_cant": "All histories; diff chains interact over many sessions.", "anchors": ["src/rdiffbackup/meta_mgr.py:PatchDiffMan", "src/rdiffbackup/meta_mgr.py:PatchDiffMan._get_diffiter", "src/rdiffbackup/meta_mgr.py:PatchDiffMan._iterate_patched_attr"]}
{"id": "C08", "title": "Metadata diff chains stay short", "statement": "Reading the metadata of any past backup never needs more than one full snapshot and a bounded number (nine) of diffs, however long the history.", "quantifier": "every history length", "why_tests_cant": "Unbounded history.", "anchors": ["src/rdiffbackup/meta_mgr.py:PatchDiffMan._check_needs_diff", "src/rdiffbackup/meta_mgr.py:PatchDiffMan._relevant_meta_main_incs"]}
{"id": "C09", "title": "Removing old increments keeps newer backups restorable", "statement": "Removing increments older than a time deletes only backups older than that time: every remaining backup restores exactly as before and the current mirror and its marker are never deleted.", "quantifier": "every history, every removal time, every remaining backup time", "why_tests_cant": "All histories and times; older diffs depend on newer ones.", "anchors": ["src/rdiffbackup/locations/_repo_shadow.py:RepoShadow.remove_increments_older_than", "src/rdiffbackup/locations/_repo_shadow.py:RepoShadow._get_removal_time"]}
{"id": "C10", "title": "Removal refuses to delete several increments without force", "statement": "Without --force, remove-increments-older-than deletes something only if exactly one increment time is older than the given time; with none it deletes nothing.", "quantifier": "every set of increment times and every time", "why_tests_cant": "Boundary conditions for all sets.", "anchors": ["src/rdiffbackup/locations/_repo_shadow.py:RepoShadow._get_removal_time"]}
{"id": "C11", "title": "Collating two ordered file streams is an exact outer join", "statement": "Collating two index-ordered streams yields each index occurring in either stream exactly once, in order, paired with the element of each stream having that index or nothing.", "quantifier": "every pair of index-ordered streams", "why_tests_cant": "All streams of any length.", "anchors": ["src/rdiff_backup/rorpiter.py:Collate2Iters"]}
{"id": "C12", "title": "Collating n ordered streams is an exact outer join", "statement": "Collating any number of index-ordered streams yields each index once, in order, with the i-th component being the element of stream i with that index or nothing; with two streams it agrees with the special-cased implementation.", "quantifier": "every finite family of ordered streams", "why_tests_cant": "All stream counts and lengths.", "anchors": ["src/rdiff_backup/rorpiter.py:CollateIterators", "src/rdiff_backup/rorpiter.py:Collate2Iters"]}
{"id": "C13", "title": "Directory processing is properly nested", "statement": "For every ordered walk of a tree, the tree reducer starts each directory before anything in it, ends it exactly once after everything in it and before anything after it, and processes every element exactly once.", "quantifier": "every ordered sequence of indices closed under parents, with any choice of which are directories", "why_tests_cant": "All trees.", "anchors": ["src/rdiff_backup/rorpiter.py:IterTreeReducer"]}
{"id": "C14", "title": "Parents are filled in before children", "statement": "Filling in an ordered stream of paths keeps every original element in order and adds each missing ancestor exactly once, before its descendants, so the result is ordered.", "quantifier": "every ordered stream of indices", "why_tests_cant": "All streams.", "anchors": ["src/rdiff_backup/rorpiter.py:FillInIter"]}
{"id": "C15", "title": "Path quoting in metadata is reversible and line-safe", "statement": "unquote_path(quote_path(p)) == p for every byte string p, and quote_path(p) never contains a newline; hence distinct paths get distinct lines.", "quantifier": "every byte string", "why_tests_cant": "All byte strings.", "anchors": ["src/rdiffbackup/utils/quoting.py:quote_path", "src/rdiffbackup/utils/quoting.py:unquote_path"]}
{"id": "C16", "title": "ACL/EA path quoting is reversible and line-safe", "statement": "acl_unquote(acl_quote(p)) == p for every byte string, and the quoted form contains no newline, no equals sign... i.e. none of the characters which are record syntax.", "quantifier": "every byte string", "why_tests_cant": "All byte strings.", "anchors": ["src/cmodule.c:acl_quote", "src/cmodule.c:acl_unquote"]}
{"id": "C17", "title": "Repository file-name quoting is reversible", "statement": "When the repository file system needs certain characters quoted, the file names written contain none of these characters, and unquoting a written name gives back the original name, so different source names never collide in the repository.", "quantifier": "every set of characters to quote, every file name", "why_tests_cant": "All names and sets.", "anchors": ["src/rdiffbackup/locations/map/filenames.py:quote", "src/rdiffbackup/locations/map/filenames.py:unquote"]}
{"id": "C18", "title": "Trailing-space and DOS-device escaping is reversible and effective", "statement": "With escaping of DOS devices and trailing spaces switched on, no quoted name ends in a space or period, none is a DOS device name, and unquoting gives back the original name.", "quantifier": "every file name", "why_tests_cant": "All names.", "anchors": ["src/rdiffbackup/locations/map/filenames.py:quote"]}
{"id": "C19", "title": "Time strings round-trip", "statement": "Converting a backup time to its time string and back gives the same time, in both the normal and the compatible notation, whatever the time zone.", "quantifier": "every second between 1901 and 2099, every UTC offset", "why_tests_cant": "Billions of times times all offsets.", "anchors": ["src/rdiff_backup/Time.py:timetostring", "src/rdiff_backup/Time.py:stringtotime", "src/rdiff_backup/Time.py:_tzd_to_seconds"]}
{"id": "C20", "title": "Interval strings mean the sum of their parts", "statement": "An interval such as 3D64s is read as the sum of number times unit over its parts, concatenation of intervals adds, and any string not of this form is rejected.", "quantifier": "every string", "why_tests_cant": "All strings.", "anchors": ["src/rdiff_backup/Time.py:_intervalstr_to_seconds"]}
{"id": "C21", "title": "nB selects the n-th newest backup", "statement": "The time 'nB' denotes the n-th newest session counting the current mirror as 0, and the oldest one if there are fewer.", "quantifier": "every n and every list of sessions", "why_tests_cant": "Boundary for all n.", "anchors": ["src/rdiff_backup/Time.py:_time_from_session"]}
{"id": "C22", "title": "Increment file names are unambiguous", "statement": "From the name of an increment file the base name, time, type and compression are recovered exactly as they were when the increment was created, so two different (base, time, type, compression) never share a name.", "quantifier": "every base name (including ones containing dots or looking like increments themselves), time, type", "why_tests_cant": "All names.", "anchors": ["src/rdiffbackup/locations/increment.py:get_increment", "src/rdiffbackup/locations/increment.py:_parse_increment_name"]}
{"id": "C23", "title": "Metadata records round-trip", "statement": "The attributes of a path written to the metadata file are read back unchanged, for all file types.", "quantifier": "every path and attribute record the writer accepts", "why_tests_cant": "All byte strings in paths, link targets.", "anchors": ["src/rdiffbackup/meta/stdattr.py:AttrFile._object_to_record", "src/rdiffbackup/meta/stdattr.py:AttrExtractor._record_to_object"]}
{"id": "C24", "title": "Reading a metadata file is independent of block boundaries", "statement": "Iterating a metadata file yields exactly the records written, in order, whatever the size of the blocks in which the file is read.", "quantifier": "every list of records, every block size and read pattern", "why_tests_cant": "All alignments of record boundaries with read blocks.", "anchors": ["src/rdiffbackup/meta/__init__.py:FlatExtractor.iterate", "src/rdiffbackup/meta/__init__.py:FlatExtractor._get_next_pos"]}
{"id": "C25", "title": "Reading metadata restricted to a sub-path", "statement": "Iterating a metadata file restricted to an index yields exactly those records at or below that index, in order.", "quantifier": "every ordered list of records, every index, every block size", "why_tests_cant": "All alignments and orders.", "anchors": ["src/rdiffbackup/meta/__init__.py:FlatExtractor._iterate_starting_with", "src/rdiffbackup/meta/__init__.py:FlatExtractor._skip_to_index"]}
{"id": "C26", "title": "First matching selection wins", "statement": "A path is included or excluded by the first selection condition that matches it, included if none matches; the repository's own rdiff-backup-data directory is never selected.", "quantifier": "every list of selection conditions, every path", "why_tests_cant": "All condition lists.", "anchors": ["src/rdiff_backup/selection.py:Select.select_default", "src/rdiff_backup/selection.py:Select.parse_rbdir_exclude"]}
{"id": "C27", "title": "Selection iterator yields exactly the selected files and their ancestors", "statement": "Iterating a selection visits in index order exactly the root, the included paths reachable through non-excluded directories, and those merely scanned directories that contain something yielded.", "quantifier": "every tree and every selection function", "why_tests_cant": "All trees.", "anchors": ["src/rdiff_backup/selection.py:Select._iterate_rpath"]}
{"id": "C28", "title": "Selecting from metadata agrees with selecting from a directory", "statement": "Applying a selection to the recorded listing (restore, compare, list) keeps the same paths as applying it to a directory tree with the same content.", "quantifier": "every tree and every selection function", "why_tests_cant": "All trees and conditions.", "anchors": ["src/rdiff_backup/selection.py:FilterIter", "src/rdiff_backup/selection.py:_FilterIterITRB", "src/rdiff_backup/selection.py:Select._iterate_rpath"]}
{"id": "C29", "title": "File lists match as documented", "statement": "A path visited in order is matched by a file list exactly according to the listed paths (included if listed or ancestor of a listed include, excluded if at or below a listed exclude), although the list is scanned only once.", "quantifier": "every file list and every ordered visit sequence", "why_tests_cant": "The scanning pointer is history dependent.", "anchors": ["src/rdiff_backup/selection.py:Select._filelist_get_sf", "src/rdiff_backup/selection.py:Select._filelist_pair_match"]}
{"id": "C30", "title": "Globs match as documented", "statement": "In a glob, ? matches one non-slash character, * any run of non-slash characters, ** anything, other characters themselves; a directory on the way to a possible match is scanned, never excluded.", "quantifier": "every glob and path", "why_tests_cant": "All patterns and paths.", "anchors": ["src/rdiff_backup/selection.py:Select._glob_to_re", "src/rdiff_backup/selection.py:Select._glob_get_normal_sf"]}
{"id": "C31", "title": "Hard links are kept together", "statement": "Within one session, every later-seen member of a hard-link group is linked to the first-seen member of the same group and never to a file of another group, and bookkeeping for a group is dropped exactly when its last member has been processed.", "quantifier": "every ordered stream of files with inode data", "why_tests_cant": "All interleavings of groups.", "anchors": ["src/rdiffbackup/locations/map/hardlinks.py"]}
{"id": "C32", "title": "Only one writer at a time", "statement": "Without --force two processes never both hold a repository for writing, and no reader holding the lock coexists with a writer, for any interleaving of lock and unlock attempts.", "quantifier": "every number of processes and every schedule", "why_tests_cant": "All schedules.", "anchors": ["src/rdiffbackup/locations/_repo_shadow.py:RepoShadow._lock", "src/rdiffbackup/locations/_repo_shadow.py:RepoShadow._unlock", "src/rdiffbackup/locations/_repo_shadow.py:RepoShadow.setup"]}
{"id": "C33", "title": "Owner mapping is applied as documented", "statement": "Ownership on the target is: same number with numerical ids; the user-given mapping first by name, then the same name on the target, then the user-given mapping by number, else the number itself.", "quantifier": "every mapping file, every user database", "why_tests_cant": "All combinations.", "anchors": ["src/rdiffbackup/locations/map/owners.py"]}
{"id": "C34", "title": "Connection messages round-trip", "statement": "Any sequence of objects, raw buffers and iterator streams written to a connection is read back as the same sequence, however the bytes are chunked in transit.", "quantifier": "every message sequence, every chunking", "why_tests_cant": "All chunkings.", "anchors": ["src/rdiff_backup/connection.py:LowLevelPipeConnection", "src/rdiff_backup/iterfile.py"]}
{"id": "C35", "title": "File and iterator streams over a pipe round-trip", "statement": "An iterator whose elements carry file contents, converted to a byte stream and back, yields the same elements with the same file contents, for every read size.", "quantifier": "every list of elements and files, every chunk size", "why_tests_cant": "All sizes.", "anchors": ["src/rdiff_backup/iterfile.py"]}
{"id": "C36", "title": "Delta transfer loops are independent of buffer sizes", "statement": "The result of computing a signature, delta or patch through the buffered file objects is the librsync result on the full content, whatever the sizes of the reads.", "quantifier": "every input, every read size sequence", "why_tests_cant": "All chunkings.", "anchors": ["src/rdiff_backup/librsync.py:LikeFile"]}
{"id": "C37", "title": "Checksums cover exactly the bytes delivered", "statement": "The SHA1 recorded for a file is the digest of exactly the bytes read through the wrapper, for every sequence of read sizes.", "quantifier": "every content, every read sequence", "why_tests_cant": "All read sequences.", "anchors": ["src/rdiff_backup/hash.py:FileWrapper"]}
{"id": "C38", "title": "Verify reports an error iff a checksum differs", "statement": "Verification at a time returns the file-error flag iff some regular file with recorded digest reconstructs to different content, and the file-warning flag iff some regular file has no digest.", "quantifier": "every repository content", "why_tests_cant": "All contents.", "anchors": ["src/rdiffbackup/locations/_repo_shadow.py:RepoShadow.verify"]}
{"id": "C39", "title": "Compare reports exactly the differences", "statement": "Comparing a directory with a backup reports each path that is new, deleted or changed exactly once and nothing for equal paths.", "quantifier": "every pair of trees", "why_tests_cant": "All pairs.", "anchors": ["src/rdiffbackup/locations/_dir_shadow.py:ReadDirShadow._get_basic_report", "src/rdiffbackup/locations/_dir_shadow.py:ReadDirShadow.compare_meta"]}
{"id": "C40", "title": "Listing changes since a time is exact", "statement": "Listing files changed since a time reports a path as new, deleted or changed iff it is so between the listing at that time and the current one.", "quantifier": "every pair of listings", "why_tests_cant": "All pairs.", "anchors": ["src/rdiffbackup/locations/_repo_shadow.py:RepoShadow.list_files_changed_since"]}
{"id": "C41", "title": "Session statistics add up", "statement": "After any sequence of file events, the recorded totals equal the sums over the files, and source minus mirror counts and sizes are explained by new, deleted and changed ones.", "quantifier": "every sequence of file events", "why_tests_cant": "All sequences.", "anchors": ["src/rdiffbackup/singletons/sstats.py"]}
{"id": "C42", "title": "Long file-name substitutes are never reused", "statement": "Every substitute name allocated for a too long file name is different from all names allocated before, across sessions and crashes.", "quantifier": "every sequence of allocations, restarts and crashes", "why_tests_cant": "All histories.", "anchors": ["src/rdiffbackup/locations/map/longnames.py:_get_next_free_filename"]}
{"id": "C43", "title": "Changed permissions are put back", "statement": "Permissions relaxed to read files during a restore are all set back to their original value by the end of the loop.", "quantifier": "every tree and every ordered sequence of accesses", "why_tests_cant": "All sequences.", "anchors": ["src/rdiffbackup/locations/_repo_shadow.py:_PermissionChanger"]}
{"id": "C44", "title": "Restore makes the target equal to the backup", "statement": "Restoring a path of the backup (a directory or a single file) to any target path, whatever is there before (nothing, a file, a directory with contents), makes the target equal to the backup at that path, deleting what is not in the backup; nothing next to the target is changed. A directory with contents is only touched with --force. If the restore is stopped at any point, everything outside the target is intact, and restoring again gives the right result.", "quantifier": "every backup, path, restore time, target tree and point of interruption", "why_tests_cant": "All pairs of trees and all interruption points.", "anchors": ["src/rdiffbackup/locations/_dir_shadow.py:WriteDirShadow.apply", "src/rdiffbackup/locations/_dir_shadow.py:_DirPatchITRB", "src/rdiffbackup/locations/_repo_shadow.py:RepoShadow.get_diffs", "src/rdiffbackup/locations/_dir_shadow.py:WriteDirShadow.check"]}
{"id": "C45", "title": "Remote location strings parse unambiguously", "statement": "A location written as host::path with backslash-escaped separators is split at the first unescaped double colon, and escaping any host and path and parsing gives them back.", "quantifier": "every host and path string", "why_tests_cant": "All strings.", "anchors": ["src/rdiff_backup/SetConnections.py"]}
{"id": "C46", "title": "Restricted servers refuse what is outside", "statement": "A server started with a restriction executes only whitelisted requests, and file requests only for paths under the restricted directory.", "quantifier": "every request", "why_tests_cant": "All requests.", "anchors": ["src/rdiff_backup/Security.py"]}
{"id": "C47", "title": "Unchanged files are recognised as unchanged", "statement": "A source file whose attributes are those it had at the last backup compares equal to what the metadata of that backup says about it, so it is not transferred again and gets no increment.", "quantifier": "every path, file type and attributes, every recorded digest, every setting of inode comparison and hard link preservation", "why_tests_cant": "All attribute combinations and names.", "anchors": ["src/rdiff_backup/rpath.py:RORPath.__eq__", "src/rdiffbackup/meta/stdattr.py", "src/rdiffbackup/locations/_repo_shadow.py:RepoShadow._sigs_iterator"]}
{"id": "C48", "title": "Files taken for unchanged have the recorded attributes", "statement": "If a source file compares equal to the metadata of the last backup then its type, permissions, owners, modification time, size, link target and device numbers are the recorded ones.", "quantifier": "every pair of old and new attributes", "why_tests_cant": "All pairs of attribute records.", "anchors": ["src/rdiff_backup/rpath.py:RORPath.__eq__"]}
{"id": "C49", "title": "Nested remote calls return to their callers", "statement": "While a remote call is being answered, either side may make further calls of the other; every call returns the result of its own execution, to the caller, for all nestings up to the number of request numbers.", "quantifier": "every tree of nested calls", "why_tests_cant": "All nestings.", "anchors": ["src/rdiff_backup/connection.py:PipeConnection.reval", "src/rdiff_backup/connection.py:PipeConnection._get_response", "src/rdiff_backup/connection.py:PipeConnection._answer_request"]}
{"id": "C50", "title": "Copies and updates of files are exact", "statement": "Copying a file writes exactly its contents, although holes are made for blocks of zeros; updating a file through signature, delta and patch writes exactly the new contents and returns their checksum.", "quantifier": "every content, every chunking", "why_tests_cant": "All contents and chunkings.", "anchors": ["src/rdiff_backup/rpath.py:copyfileobj", "src/rdiff_backup/rpath.py:_cmp_file_obj", "src/rdiff_backup/Rdiff.py:patch_local"]}
{"id": "C51", "title": "Signature block sizes are sensible for all lengths", "statement": "The block size for the signature of a file is a multiple of 16, at least 64, and close to the square root of the length.", "quantifier": "every file length", "why_tests_cant": "All lengths.", "anchors": ["src/rdiff_backup/Rdiff.py:_find_blocksize"]}
{"id": "C52", "title": "Removing a file from all backups removes exactly that file", "statement": "After `rdiff-backup remove file`, restoring any directory as of any time gives what it gave before without the removed path and what is below it; nothing of the path is left in the repository, all other files and later backups are unaffected; --dry-run changes nothing and gives the same answer; the repository itself and its data directory are refused. If interrupted, everything else is still restored as before and repeating the command completes it. In the texts of the metadata files exactly the entries of the path are removed, whatever the names.", "quantifier": "every history of backups, crashes, regresses and removals; every path, time and restored directory; every point of interruption; every list of entries with arbitrary file names", "why_tests_cant": "All histories, crash points and file names.", "anchors": ["src/rdiffbackup/locations/_repo_shadow.py:RepoShadow.remove_file", "src/rdiffbackup/locations/_repo_shadow.py:RepoShadow._remove_from_metadata", "src/rdiffbackup/actions/remove.py:RemoveAction"]}
{"id": "C53", "title": "Extended attributes and access control lists survive backup and restore", "statement": "Every file gets back exactly its own extended attributes and access control list, as recorded by the backup that is restored: values of attributes byte for byte; of ACLs (default ones included) type, permissions and order of all entries and the user or group they are for; files without get none. What is read back compares equal to the original. On a system the entries whose names it knows are restored by that name, those without names by number, others dropped; on the same system the ACL is the same. Attributes which the file had before and which are not recorded are removed.", "quantifier": "every list of paths, every attribute value, every ACL, every buffering and read size, every sub-path restored", "why_tests_cant": "All byte strings, names, ACLs and block boundaries.", "anchors": ["src/rdiffbackup/meta/ea.py:ExtendedAttributesFile", "src/rdiffbackup/meta/ea.py:EAExtractor", "src/rdiffbackup/meta/acl_posix.py:AccessControlLists", "src/rdiffbackup/meta/acl_posix.py:_list_to_acl", "src/rdiffbackup/meta_mgr.py:Manager.get_metas_at_time"]}
{"id": "C54", "title": "A bounded cache never loses what a backup needs", "statement": "A backup keeps only a bounded number of files in memory between the two directions of the exchange (2000 at the destination, 1500 at the source). Nevertheless, for trees of any size and whatever the sizes of the blocks in which signatures and diffs are sent, a backup ends without a missing entry, and the repository is exactly the one a backup with unlimited memory would give. The source finds every file it is asked for, and never takes a file for deleted because it has left the cache.", "quantifier": "all repositories reached, all source trees, all cache sizes and flush intervals (interval + 2 <= size), all interleavings of reading and processing in which no diff is processed too late, all block sizes", "why_tests_cant": "Entries are only dropped with more than 2000 files between two points of one session; tests use small trees or patch one constant. A failure depends on how far the reading is ahead, which depends on block sizes of the connection, and the wrong result is a stale record which is noticed at restore time only.", "anchors": ["src/rdiffbackup/locations/_repo_shadow.py:_CacheCollatedPostProcess", "src/rdiffbackup/locations/_repo_shadow.py:_sigs_iterator", "src/rdiff_backup/rorpiter.py:CacheIndexable", "src/rdiff_backup/iterfile.py:MiscIterToFile", "src/rdiffbackup/locations/_dir_shadow.py:get_diffs"]}
{"id": "C55", "title": "A forced regress undoes exactly the last backup", "statement": "`regress --force` in a repository with at least two backups removes the newest one and nothing else: every other backup is restored exactly as before, also as of any time between backups, and the repository accepts further backups. A backup followed by a forced regress leaves the repository as it was before the backup. Repeating it removes one backup at a time, but never the last one: with a single backup (or without --force in a complete repository) nothing changes. If a forced regress is interrupted, after any operation and any number of times, the next regress completes it with the same result.", "quantifier": "all repositories reached by any history of backups, interruptions, regresses, removals and forced regresses; all interruption points; all numbers of repetitions", "why_tests_cant": "A forced regress pretends that a session which was completed (perhaps long ago, and changed by removals since) had failed; whether what it left is enough to undo it depends on every increment and metadata file of all the history.", "anchors": ["src/rdiffbackup/actions/regress.py:run", "src/rdiffbackup/actions/__init__.py:_operate_regress", "src/rdiffbackup/locations/_repo_shadow.py:force_regress", "src/rdiffbackup/locations/_repo_shadow.py:get_increment_times"]}
{"id": "C56", "title": "The first backup works in any directory and can be started over", "statement": "A first backup can be made into a directory with any contents: it succeeds, afterwards the mirror is the source (nothing of what was there before remains) and the backup is restored exactly. If first backups are interrupted - any number of times, each after any operation, also while the remains of the previous one are being removed - nothing can be restored, the next backup is refused as long as a lock file is there and --force is not given, and otherwise it succeeds and is restored exactly. A repository with a complete backup is never taken for an interrupted first backup, in whatever state later operations leave it: its data is never removed.", "quantifier": "all directories, sources, interruption points, numbers of attempts; all reachable repositories", "why_tests_cant": "What an interrupted first backup leaves depends on the moment and on what was there before; a wrong guess in either direction loses a whole repository or makes the directory unusable.", "anchors": ["src/rdiffbackup/locations/_repo_shadow.py:_create", "src/rdiffbackup/locations/_repo_shadow.py:_is_failed_initial_backup", "src/rdiffbackup/locations/_repo_shadow.py:_clean_failed_initial_backup", "src/rdiffbackup/locations/_repo_shadow.py:_get_dest_select", "src/rdiffbackup/actions/backup.py:run"]}
{"id": "C57", "title": "Reading a backup finds exactly what is in the repository for each file", "statement": "Restore, verify and compare list each directory of the repository once and remember what they saw. However the directories look - after any history or damage - for each file requested (in order) they find exactly its mirror file and all its increments, or notice that nothing is there; in a repository with complete backups the search always ends, and a restore of any part of any backup through it gives exactly the files backed up. (For a lost file which would be the last one of a directory where something else is left, the code searches for ever.)", "quantifier": "all directory trees of mirror and increments, all increasing sequences of requests; all reachable repositories, times and sub-paths", "why_tests_cant": "The list of remembered entries mixes several directories and is cut and extended as the requests move through the tree; a wrong entry needs a particular combination of names, deleted directories and increments.", "anchors": ["src/rdiffbackup/locations/_repo_shadow.py:_CachedRF", "src/rdiffbackup/locations/_repo_shadow.py:_RestoreFile.yield_sub_rfs", "src/rdiffbackup/locations/_repo_shadow.py:_RestoreFile.yield_inc_complexes", "src/rdiffbackup/locations/_repo_shadow.py:_RestoreFile.get_restore_fp"]}
{"id": "C58", "title": "A clean verification means that the backup can be restored", "statement": "Verification of any part of any backup in a repository with complete backups ends and reports no corrupted file; it counts the files for which no digest was recorded. Whatever has happened to the mirror and the increments, verification reports corrupted files exactly if a restore would write data with another digest than recorded; so, if it reports nothing, the backup is restored exactly as it was made (SHA1 being free of collisions).", "quantifier": "all reachable repositories, all damage to mirror and increments, all times and sub-paths", "why_tests_cant": "There are unboundedly many kinds of damage; and a false alarm might need a special history.", "anchors": ["src/rdiffbackup/locations/_repo_shadow.py:verify", "src/rdiffbackup/locations/_repo_shadow.py:init_and_get_loop", "src/rdiffbackup/actions/verify.py:run", "src/rdiffbackup/locations/_repo_shadow.py:get_mirror_time"]}
{"id": "C59", "title": "Comparison reports exactly the differences to the backup", "statement": "Comparing a directory with any part of any backup in a repository with complete backups reports exactly the files which are new, deleted or changed with respect to the files that were backed up: by metadata (type, attributes, size); by digest (also other data, unless no digest was recorded); by full data. Right after a backup none of the methods reports a difference to the source.", "quantifier": "all reachable repositories, all directories, times and sub-paths", "why_tests_cant": "The backed-up files are not there to compare with, they are reconstructed from metadata, mirror and increments of the whole history.", "anchors": ["src/rdiffbackup/actions/compare.py:run", "src/rdiffbackup/locations/_dir_shadow.py:compare_full", "src/rdiffbackup/locations/_dir_shadow.py:compare_hash", "src/rdiffbackup/locations/_dir_shadow.py:compare_meta", "src/rdiffbackup/locations/_repo_shadow.py:_attach_files"]}
{"id": "C60", "title": "`list files` lists the files of a backup, and exactly what has changed since", "statement": "`list files --at T` lists exactly the paths of the chosen backup at and below the given path, in order. `list files --changed-since T` reports, in order and once each, exactly the paths which are new, deleted or changed in the last backup with respect to the chosen one: changed means another type, attributes or size, or other data as far as digests were recorded. If digests are recorded for all regular files this is exact; nothing is reported since the last backup.", "quantifier": "all repositories with complete backups (any history), all times and sub-paths", "why_tests_cant": "Old listings are computed from chains of metadata differences over the whole history; both listings are merged by order.", "anchors": ["src/rdiffbackup/locations/_repo_shadow.py:list_files_at_time", "src/rdiffbackup/locations/_repo_shadow.py:list_files_changed_since", "src/rdiffbackup/actions/list_.py:run", "src/rdiff_backup/rpath.py:RORPath.__eq__"]}
{"id": "C61", "title": "`list increments` tells the type of a path in every backup", "statement": "In a repository with complete backups the entries listed for any path are ordered by time, each for another existing backup, the last one for the mirror. The type of the path in any backup (directory, regular, special, missing) is that of the first entry not before this backup, in particular each entry has the type which the path had in its backup. If a backup is not listed, the contents of the path are the same in the next backup. A backup adds the time of the previous one for a directory exactly if something at or below it differs from what was recorded (so a backup after which nothing changed is not listed), for a file exactly if its contents had to be replaced.", "quantifier": "all repositories with complete backups (any history of backups, crashes, regresses, removals), all paths", "why_tests_cant": "Increments are written by three different ways (directories, fast files, fillers), and removed by regress and removal; the claim is about every history.", "anchors": ["src/rdiffbackup/locations/_repo_shadow.py:get_increments", "src/rdiffbackup/locations/_repo_shadow.py:_get_inc_type", "src/rdiffbackup/locations/_repo_shadow.py:_get_file_type", "src/rdiffbackup/locations/increment.py:make_increment", "src/rdiffbackup/actions/list_.py:_list_increments"]}
{"id": "C62", "title": "`list increments --size` adds up and predicts what a removal leaves", "statement": "The listing of sizes has exactly one entry for the mirror and one for each time of increments at or below the path, in order of time; the size is that of the increments of this time, the cumulative size that of the mirror and all increments which are not older. The first cumulative size is that of everything. After removing everything before a time, the listing consists of exactly the entries from this time on, unchanged. There is no listing (an exception) exactly if the path is not in the last backup.", "quantifier": "all repositories, all sizes of files and increments, all paths and removal times", "why_tests_cant": "Sums over trees of any size and any number of increments.", "anchors": ["src/rdiffbackup/locations/_repo_shadow.py:get_increments_sizes", "src/rdiffbackup/locations/_repo_shadow.py:remove_increments_older_than", "src/rdiffbackup/actions/list_.py:_list_increments_sizes"]}
{"id": "C63", "title": "A path or an increment given to restore means the right file of the right backup", "statement": "If an increment file of a repository is given to `restore`, then the file or directory it belongs to is restored, with everything below it, exactly as of the backup of the time in its name. If a path inside the repository is given (also of a file which is gone), then exactly what is at and below it is restored: as of the last backup, or with --at nB as of the n-th newest (the oldest if there are not so many). The nearest directory above which contains rdiff-backup-data is the repository.", "quantifier": "all repositories after any history of backups, crashes, regresses and removals; all paths, names and increments; all times and time zones of names (except F1)", "why_tests_cant": "File names are arbitrary and may look like increments or like the directories of a repository; contents depend on the whole history.", "anchors": ["src/rdiffbackup/locations/_repo_shadow.py:_get_repository_dirs", "src/rdiffbackup/locations/_repo_shadow.py:get_parsed_time", "src/rdiffbackup/actions/restore.py:RestoreAction.check", "src/rdiffbackup/actions/restore.py:RestoreAction.setup", "src/rdiff_backup/rpath.py:get_parent_rp"]}
{"id": "C64", "title": "Restoring with selection options leaves excluded files alone", "statement": "When a backup is restored into a directory with options which exclude by path, an excluded file of the target is never changed or deleted and nothing is created at an excluded path, even if the restore is interrupted or fails at any point; nothing outside the target is changed. With options --include PATH, --exclude PATH, --include '**', --exclude '**' in any number and order (the root not being excluded), the restore succeeds if and only if every directory of the target with something excluded in it is a directory in the backup; then everything which is not excluded is at the target as in the backup, and what is excluded is as before. A part of a backup cannot be restored with options which select by path.", "quantifier": "all repositories after any history, all backups, all contents of the target, all lists of options (as described), all interruption points", "why_tests_cant": "The selection is applied separately to the records of the backup and to the files of the target, the effect depends on both trees and on the list of options, and must hold at every interruption point.", "anchors": ["src/rdiffbackup/actions/restore.py:_operate_restore", "src/rdiffbackup/actions/restore.py:check", "src/rdiffbackup/locations/_repo_shadow.py:set_select", "src/rdiffbackup/locations/_repo_shadow.py:_get_mirror_rorp_iter", "src/rdiffbackup/locations/_repo_shadow.py:get_diffs", "src/rdiffbackup/locations/_dir_shadow.py:get_sigs_select", "src/rdiffbackup/locations/_dir_shadow.py:apply", "src/rdiff_backup/selection.py:FilterIter", "src/rdiff_backup/selection.py:Select"]}
{"id": "C65", "title": "Contents of hard-linked files survive any sequence of backups", "statement": "When files with hard links are backed up any number of times, with links added, removed, split off and changed between backups: each path restored as of any backup has exactly the contents and the attributes which it had in the source at that backup, or, if an error was logged for it then, those of the backup before or nothing; a backup never changes what is restored as of earlier ones, whatever goes wrong with whichever file; errors are only logged for files which could not be transferred.", "quantifier": "all sets of paths and of links among them, all sequences of backups, all orders in which files are listed, decided about and post-processed, all failures of transfers", "why_tests_cant": "The digest and the identity of a file is passed between its links through a table which is filled while the files are processed; which link is transferred, which is only linked and which is kept depends on the whole history of links and on the failures in it.", "anchors": ["src/rdiffbackup/locations/_repo_shadow.py:_sigs_iterator", "src/rdiffbackup/locations/_repo_shadow.py:_CacheCollatedPostProcess.update_hash", "src/rdiffbackup/locations/_repo_shadow.py:_CacheCollatedPostProcess.update_hardlink_hash", "src/rdiffbackup/locations/_repo_shadow.py:_RepoPatchITRB.fast_process_file", "src/rdiffbackup/locations/_repo_shadow.py:_RepoIncrementITRB.fast_process_file", "src/rdiffbackup/locations/map/hardlinks.py", "src/rdiff_backup/rpath.py:RORPath.equal_loose"]}
{"id": "C66", "title": "Hard-linked files are restored with their contents and as hard links", "statement": "Restoring paths of a backup into a directory gives each path which is not left as it is exactly the file of the backup, and nothing where the backup has nothing; other paths and the contents of all files which were there remain. A path is left as it is only if it is listed with the type, attributes, size and number of links which it has in the backup and, if it has several links, with the same inode, and is not the first of them. Two restored paths are links of the same file exactly if they were when they were backed up; all of them if the target is new.", "quantifier": "all repositories after any history of backups, all backups, all contents and all listings of the target, all orders in which files are listed and decided about", "why_tests_cant": "Which paths are linked to which depends on all pairs of links in the backup and in the target, and on the interleaving of listing and restoring.", "anchors": ["src/rdiffbackup/locations/_repo_shadow.py:get_diffs", "src/rdiffbackup/locations/_dir_shadow.py:_DirPatchITRB", "src/rdiffbackup/locations/map/hardlinks.py", "src/rdiff_backup/rpath.py:RORPath.__eq__"]}
{"id": "C67", "title": "A repository keeps its quoting, and the quoting makes all names fit the file system", "statement": "All backups into a repository quote file names in the same way, and all other actions read them in that way, whichever file systems the source, the repository or the target are on; a backup which needs another quoting fails without changing anything. Names of two files of the source never denote the same file on the repository's file system, all names of the source can be used there, and are read back as they were.", "quantifier": "all sequences of backups with any options, all combinations of file system abilities, all file names", "why_tests_cant": "The quoting depends on what several file systems can do at the time of the first backup and must fit every later name and backup.", "anchors": ["src/rdiffbackup/locations/fs_abilities.py:Dir2RepoSetGlobals", "src/rdiffbackup/locations/fs_abilities.py:Repo2DirSetGlobals", "src/rdiffbackup/locations/fs_abilities.py:SingleRepoSetGlobals", "src/rdiffbackup/locations/_repo_shadow.py:_setup_quoting", "src/rdiffbackup/locations/map/filenames.py:get_quoting_regexps"]}
{"id": "C68", "title": "File statistics are exact", "statement": "The statistics of files written by a backup are read back as they were written, whatever the file names, the separator and the sizes of buffers. Calculated over any sessions, they show for exactly those directories and files which reach, in at least one session, the given part of that session's total, the sum of their totals at any depth; such values are never too large and lack at most the cut-offs of the other sessions, and nothing larger than the sum of the cut-offs is missed. The list of largest directories has exactly those which, without what is listed below them, are still larger than the cut-off; the amounts listed are disjoint and make up the whole but for less than the cut-off.", "quantifier": "all trees of files with all names, sizes and changes, all sequences of sessions, all cut-off ratios, all buffer sizes and block boundaries", "why_tests_cant": "Trees are built from a stream by two stack algorithms, merged pairwise, and walked with amounts being moved between levels; a wrong total shows only for certain shapes of trees and cut-offs.", "anchors": ["src/rdiffbackup/singletons/fstats.py:FileStatsTracker", "src/rdiffbackup/singletons/fstats.py:FileStatsTree", "src/rdiffbackup/utils/buffer.py:LinesBuffer", "src/rdiffbackup/singletons/sstats.py:get_cutoff", "src/rdiffbackup/locations/_repo_shadow.py:get_statistics"]}
{"id": "C69", "title": "Preparing an action loses nothing without --force", "statement": "The checks and preparations before an action runs keep everything which exists as it was, unless --force is given; with it only something which is not a directory and stands where the repository or the restored directory shall be is removed. Repositories with a completed backup keep everything but their lock file even with --force. A restore without --force starts only in an empty directory, a backup only in a repository, an empty directory or a new one; what is refused is left unchanged. What is created are only the needed directories and the lock file; actions which only read create nothing.", "quantifier": "all actions, all contents of the file system, all options, all outcomes of creating, deleting and locking", "why_tests_cant": "Checks and preparation are separate steps over several locations, each with its own conditions on what exists; loss occurs for particular contents of directories.", "anchors": ["src/rdiffbackup/locations/location.py:LocationShadow.check", "src/rdiffbackup/locations/location.py:LocationShadow._create", "src/rdiffbackup/locations/_repo_shadow.py:setup", "src/rdiffbackup/locations/_repo_shadow.py:_create", "src/rdiffbackup/locations/_repo_shadow.py:_is_failed_initial_backup", "src/rdiffbackup/locations/_dir_shadow.py:WriteDirShadow.check", "src/rdiffbackup/run.py:main_run"]}
{"id": "C70", "title": "The exit status tells what happened", "statement": "The exit status combines error (1), warning (2), file error (4) and file warning (8). Status 0 means that the action has done what it is for; a backup, restore, verification, comparison or listing which has not come to its end tells an error, and only then. A verification tells a file error exactly if a digest does not match and a file warning exactly if one is missing; a comparison tells a file warning exactly if there are differences; an action which failed on single files tells a file error. Nothing is changed before all checks and preparations have succeeded.", "quantifier": "all actions, all outcomes of all steps, all numbers and results of files", "why_tests_cant": "The status is combined from many steps, each with several outcomes; a wrong combination shows only for particular sequences of outcomes.", "anchors": ["src/rdiffbackup/run.py:main_run", "src/rdiffbackup/actions/__init__.py:_operate_regress", "src/rdiffbackup/actions/backup.py:BackupAction", "src/rdiffbackup/actions/compare.py:CompareAction", "src/rdiffbackup/actions/verify.py:VerifyAction", "src/rdiffbackup/actions/calculate.py:CalculateAction", "src/rdiffbackup/actions/test.py:TestAction", "src/rdiffbackup/singletons/consts.py"]}
{"id": "C71", "title": "Damage to a metadata file is confined", "statement": "If part of a metadata file is damaged or the file is cut off, then the metadata of all paths whose records are not touched by it, nor next to it, are still read unchanged and in order, whatever the damaged bytes are and however the file is read; unless the damage is in the first record's beginning, or leaves a record without name, no exception ends the reading.", "quantifier": "every list of recorded paths, every position and content of the damaged bytes, every place where the file is cut off, every size of reads, every sub-path to which reading is restricted", "why_tests_cant": "All damaged contents and their alignments with records and blocks.", "anchors": ["src/rdiffbackup/meta/__init__.py:FlatExtractor.iterate", "src/rdiffbackup/meta/__init__.py:FlatExtractor._get_next_pos", "src/rdiffbackup/meta/stdattr.py:AttrExtractor._record_to_object", "src/rdiffbackup/meta/ea.py:EAExtractor._record_to_object"]}
{"id": "C72", "title": "What is recorded and restored of attributes follows file systems and options", "statement": "Extended attributes and access control lists are recorded iff the source's file system supports them and the option is on; what is recorded at a backup is what the source has at that time, after whatever earlier backups with other options and file systems, and whether or not the repository's file system supports them. A path which hasn't changed isn't taken for changed. A restore onto a file system which supports them gives back what is recorded, whatever was there. With --never-drop-acls a backup which can't record them stops. Regressing keeps what is recorded about links.", "quantifier": "all histories of backups with any connections, file system abilities, options and contents; all targets of restores", "why_tests_cant": "Settings of several sessions and of both sides interact; test machines have one kind of file system.", "anchors": ["src/rdiffbackup/locations/fs_abilities.py:SetGlobals", "src/rdiffbackup/locations/fs_abilities.py:Dir2RepoSetGlobals._update_triple", "src/rdiffbackup/locations/fs_abilities.py:Repo2DirSetGlobals._update_triple", "src/rdiff_backup/rpath.py:RORPath.__eq__", "src/rdiff_backup/rpath.py:_add_rpath_metadata", "src/rdiffbackup/locations/_repo_shadow.py:_CacheCollatedPostProcess._post_process", "src/rdiffbackup/meta_mgr.py:Manager.recreate_attr"]}
{"id": "C73", "title": "All ends of a session agree on the API version and on the settings", "statement": "If a session with any local and remote locations starts, then the client and all servers use the same version of the API, and each of them knows it; a version given with --api-version is the one used, and the session starts iff all ends know it; with one server it starts iff there is a version which both know, and the preferred one is used if possible. However connections are made and settings changed by any of the ends, each setting has the same value at all ends, the one last given to it, and every end can reach every other one.", "quantifier": "all API versions of client and servers, all lists of locations, all options; all sequences of connections and changes of settings by all ends", "why_tests_cant": "Tests use one version of the program at all ends, and one or two connections in one order.", "anchors": ["src/rdiff_backup/SetConnections.py:_validate_connection_version", "src/rdiff_backup/SetConnections.py:_init_connection_routing", "src/rdiff_backup/SetConnections.py:_init_connection_settings", "src/rdiffbackup/singletons/specifics.py:set_api_version", "src/rdiffbackup/singletons/generics.py:set", "src/rdiffbackup/singletons/generics.py:dispatch_settings", "src/rdiffbackup/actions/__init__.py:BaseAction.connect"]}
{"id": "C74", "title": "The command which starts a server is exactly the one described", "statement": "Whatever the remote schema, host and version: a command which is executed has exactly the host in the place of each {h}, the numbers of the version in the place of {Vx}, {Vy} and {Vz}, single braces for doubled ones, and everything else as it stands; braces in the name of a host have no meaning. No other placeholders have an effect. Other schemas are refused as invalid. Without a schema, the command is ssh, with -C unless compression is off, and rdiff-backup with the remote directory for temporary files and the verbosity. Each location gets its own command iff it is remote, in order.", "quantifier": "all schemas, hosts, options and lists of locations", "why_tests_cant": "The schema is checked by two regular expressions and filled by a third syntax; only some texts are tried by tests.", "anchors": ["src/rdiff_backup/SetConnections.py:get_cmd_pairs", "src/rdiff_backup/SetConnections.py:_fill_schema"]}
{"id": "C75", "title": "A copy is like the source, and copying and renaming change nothing else", "statement": "After a file of any type is copied with its attributes onto any path (free, or taken by any other file or directory), the path has the source's type, data, owner, permissions, modification time, extended attributes and access control list, as far as the settings ask for them and the file system can hold them; whatever was there before has no influence. No other path and no other file changes: not even another hard link of the file which was replaced. If the source doesn't exist, neither does the target afterwards. After renaming, everything which was at the old path and below is at the new one, nothing is left at the old one, and all else is as before, even if both are hard links of the same file. Increments have owner, time and permissions of the file they are made of.", "quantifier": "all file systems with any hard links, all sources, targets, settings, and whatever chown does to permissions", "why_tests_cant": "The order of the system calls matters (chown clears bits, chmod changes access control lists and lists change permissions); tests try some combinations of types and attributes only.", "anchors": ["src/rdiff_backup/rpath.py: copy, cmp, copy_attribs, copy_attribs_inc, copy_with_attribs, rename, RPath.chmod, RPath.chown, RPath.setmtime, RPath.delete, RPath.makedev", "src/rdiffbackup/meta/acl_posix.py: set_rp_acl", "src/rdiffbackup/meta/ea.py: write_to_rp"]}
{"id": "C76", "title": "While a file is copied, nobody gets at it who may not in the end", "statement": "At each moment from when a new file is made until its attributes are all set, any user but the one who runs the program and the owner of the source has no permission for it which he doesn't have at the end.", "quantifier": "all sources, settings, users and groups, all moments between system calls", "why_tests_cant": "The moments in between, and those in which the program may be killed, are not seen by tests.", "anchors": ["src/rdiff_backup/rpath.py: copy_attribs, copy_with_attribs", "src/rdiffbackup/actions/__init__.py: umask"]}
{"id": "C77", "title": "Selection options mean what they say, each in its place", "statement": "The selection options given on the command line become conditions in the order in which they are given, preceded by the one which excludes the data directory. A list of patterns read from a file is the same as an option for each of its lines in its place, with the line's sign or the option's; a list of files is read as the paths in it below the base directory, each with its sign, whatever the line endings and blank lines. A path may be written with any number of slashes. `--include` for some paths followed by `--exclude '**'` makes the backup look at exactly what is at or below these paths or on the way to them; `--exclude` for some paths, at exactly the rest. A path elsewhere than below the base directory, and a last option which only includes, are refused.", "quantifier": "all lists of options, all paths, all lists and line endings, all directory trees", "why_tests_cant": "Options combine in unboundedly many orders with unboundedly many trees.", "anchors": ["src/rdiff_backup/selection.py: Select.parse_selection_args, Select._get_relative_index, Select._filelist_read, Select._filelist_parse_line, Select._filelist_globbing_get_sfs, Select._glob_get_sf", "src/rdiffbackup/utils/argopts.py: SelectAction"]}
{"id": "C78", "title": "A power failure loses nothing of the last good backup", "statement": "With fsync in use, whenever the power fails while a file is backed up, and whatever part of the writes not yet synchronised is lost, the increment and the file in the mirror which are left are enough: the regress gives back the file as it was in the last good backup, with its data and attributes, and removes the increment. The same after any number of further power failures while it is regressed. When the regress is done the file is as it was.", "quantifier": "all contents, attributes and types of file, all moments of the failure, all subsets of the writes which were not synchronised, any number of failures", "why_tests_cant": "Which of the pending writes reach the disk is up to the file system; the number of combinations is unbounded and can't be provoked by a test.", "anchors": ["src/rdiffbackup/locations/_repo_shadow.py: _RepoIncrementITRB.fast_process_file, _RepoRegressITRB.fast_process_file, _RepoRegressITRB._restore_orig_regfile", "src/rdiffbackup/locations/increment.py: make_increment", "src/rdiff_backup/rpath.py: RPath.fsync_with_dir, RORPath.equal_loose"]}
{"id": "C79", "title": "A power failure is noticed, and what was recorded stays readable", "statement": "With fsync in use, whenever the power fails during a backup or while one is undone, and whatever part of the writes not yet synchronised is lost, the markers in the repository tell the truth: if there is one, the backup it stands for is complete, its mirror is on the disk; if there are two, the newer backup is known to be interrupted, and can be undone. There are never none, and never others. In all cases the metadata of all good backups can be read, however many backups, failures and regresses there were. A backup which was reported as complete stays.", "quantifier": "all histories of backups, failures and regresses, all moments of the failures, all subsets of the writes which were not synchronised, all metadata, chains of any length", "why_tests_cant": "Which of the pending writes reach the disk is up to the file system; a test can't provoke all combinations at all moments, and the histories are unbounded.", "anchors": ["src/rdiffbackup/actions/backup.py: BackupAction._operate_backup", "src/rdiffbackup/locations/_repo_shadow.py: RepoShadow.touch_current_mirror, RepoShadow.remove_current_mirror, RepoShadow.needs_regress, RepoShadow.regress, RepoShadow._regress_rbdir", "src/rdiffbackup/meta_mgr.py: PatchDiffMan.convert_meta_main_to_diff, Manager.recreate_attr", "src/rdiffbackup/meta/__init__.py: FlatFile.close"]}
{"id": "C80", "title": "Files with too long names are restored", "statement": "If the name of a file in the mirror, or of its increments, gets too long, its data are kept under a substitute name; nevertheless every backup is restored exactly, also where such a file was changed, deleted, replaced and came back, and substitute names were lost by killed backups, and after backups that failed at any moment and were undone. No file is given the data of another, or of another time.", "quantifier": "all histories of backups, all sets of files and contents, any limits on the length of names, all orders of files, all losses of names in between, all failed backups and moments of failure", "why_tests_cant": "The place where a file and its increments are depends on its whole history, and on names taken by other files before; histories are unbounded.", "anchors": ["src/rdiffbackup/locations/map/longnames.py: get_mirror_inc_rps, update_rf, _get_inclist, _check_new_index", "src/rdiffbackup/locations/_repo_shadow.py: _RepoIncrementITRB.fast_process_file, _CachedRF.get_fp, _RestoreFile.set_relevant_incs, _RestoreFile.get_restore_fp, RepoShadow._iterate_meta_rfs, _RepoRegressITRB.fast_process_file", "src/rdiffbackup/locations/increment.py: make_increment"]}
{"id": "C81", "title": "Temporary files are in nobody's way", "statement": "New data are written to temporary files, which then take the place of the old ones. Whatever names the files that are there, and those that are backed up or restored, have, also names like those of temporary files, and whatever numbers have been used before: no temporary file is written over another file, none is left, no directory is removed that isn't empty, and the tree becomes exactly the new one.", "quantifier": "all trees before and after, all names, all numbers the search begins with, all mixes of files and directories replaced by each other", "why_tests_cant": "Temporary names collide only with particular file names at particular counts; the number of combinations of names, counts and nested replacements is unbounded.", "anchors": ["src/rdiff_backup/rpath.py: RPath.get_temp_rpath, _get_next_tempfile_name, rename, rmdir, delete", "src/rdiffbackup/locations/_repo_shadow.py: _RepoPatchITRB.fast_process_file, start_process_directory, end_process_directory, _RepoIncrementITRB.fast_process_file", "src/rdiffbackup/locations/_dir_shadow.py: fast_process_file, start_process_directory, end_process_directory"]}
{"id": "C82", "title": "Compression of increments is transparent", "statement": "Whatever the settings for compression (on, off, a regular expression for files that aren't compressed) are in each backup, the data of every file are restored exactly as they were in any of the backups. Compressed are, of the increments which a backup makes, just those of regular files for which compression is on and the expression doesn't match.", "quantifier": "all histories of backups of any files and contents, all settings and regular expressions in each of them, all names (also those that look like increments or compressed files), all orders of directory entries", "why_tests_cant": "A restore reads increments made by many sessions with different settings; how each must be read follows from its name only, and histories, names and settings are unbounded.", "anchors": ["src/rdiffbackup/locations/increment.py: init, make_increment, get_increment, _parse_increment_name, _is_compressed, _make_snapshot_increment, _make_diff_increment", "src/rdiffbackup/locations/_repo_shadow.py: _RestoreFile.set_relevant_incs, get_newer_incs, get_restore_fp, _get_first_fp, yield_inc_complexes", "src/rdiff_backup/rpath.py: RPath.open, write_from_fileobj, copy_with_attribs"]}
{"id": "C83", "title": "Metadata and statistics are read back as written, compressed or not", "statement": "Metadata and statistics are written compressed or not, as the settings say, and read according to their names: whatever the settings and the data (also none), what is read is what was written; this is also true when entries are removed from them, and when metadata are recreated by undoing a backup. A file without data isn't compressed.", "quantifier": "all settings, records, sizes of the buffer, names, contents of the directory", "why_tests_cant": "The name is decided before or after the data are known, in four different ways; whether they agree with the data must hold for all settings and data.", "anchors": ["src/rdiff_backup/rpath.py: MaybeGzip, RPath.open", "src/rdiffbackup/meta/__init__.py: FlatFile.__init__, write_object, close", "src/rdiffbackup/meta_mgr.py: Manager.recreate_attr, _writer_helper", "src/rdiffbackup/locations/_repo_shadow.py: RepoShadow._open_stats_file, _remove_from_metadata, _get_files_sum"]}
{"id": "C84", "title": "Messages are written where they have to be, and once", "statement": "During a backup, each message which is important enough for the verbosity of the log is in backup.log, once and in the order of the messages, whichever process it came from; each recoverable error, and nothing else, is in the error log, which can be cut into the texts again. Each message is shown at the process where it arose if it is important enough for its terminal: errors and warnings on standard error, the rest on standard output. A server never writes on its standard output, which is the connection. Before the repository is ready and after it has been left, no log gets anything. The level and the text of a message can be told from its line. A verbosity which isn't a number from 0 to 9 is refused, and then none is changed; all processes get the verbosities of the client.", "quantifier": "all numbers of processes, sequences of messages, errors and exceptions from any process, verbosities, roles", "why_tests_cant": "Messages travel between processes and through four switches in each of them; that none is lost, doubled or sent into the connection must hold for all sequences of messages from all of them.", "anchors": ["src/rdiffbackup/singletons/log.py: Logger.__call__, log_to_file, log_to_term, exception, _format, ErrorLogger, set_verbosity, validate_verbosity", "src/rdiff_backup/SetConnections.py: _init_connection_settings", "src/rdiffbackup/locations/repository.py: Repo.setup, Repo.exit", "src/rdiffbackup/locations/_repo_shadow.py: RepoShadow._setup_logging, _open_logfile, exit"]}
{"id": "C85", "title": "Errors while reading the source hide only what they concern, and are reported", "statement": "If files of the source can't be looked at, vanish meanwhile, or directories can't be listed, the walk through the source still ends normally. It finds, in order and each once, the files selected among those which can be seen, that is those whose parent directories can be looked at and listed. The error log names exactly the files which can't be looked at and the directories which can't be listed, as far as the selection doesn't exclude them. A file which can be seen and is included is found whatever fails elsewhere; a selected file which isn't found is hidden by an error in the log or by something that vanished.", "quantifier": "all source trees, selections (but for the options of F18, F19), and sets of failing files, directories and vanished files", "why_tests_cant": "The sets of failing files and their interplay with delayed directories of the selection are unbounded; tests make one directory unreadable.", "anchors": ["src/rdiff_backup/selection.py: Select._iterate_rpath, Select._listdir_sorted", "src/rdiff_backup/robust.py: check_common_error"]}
{"id": "C86", "title": "Completion proposes what can be put there", "statement": "Given a command line and the place of the cursor, the complete action proposes, where an option or an action can be, exactly the options and actions of the action concerned which start with what has been entered there and haven't been given yet, each once and sorted by their letters; if nothing starts so, or nothing has been entered, and a location can be there, files too. Where the value of an option has to be, its choices, files if it is one, or nothing. The name of an action is proposed as it is. It refuses to do anything exactly if there are no words or the cursor isn't at one of them; the cursor can be counted from the end.", "quantifier": "all trees of actions and options, all command lines, all places of the cursor", "why_tests_cant": "Tests try some command lines; what is proposed must be right for every one.", "anchors": ["src/rdiffbackup/actions/complete.py: CompleteAction.pre_check, run, _get_possible_options, _get_possible_sub_options, _get_matching_options, _get_options_dict"]}
{"id": "C87", "title": "Readable sizes and durations say what they stand for", "statement": "A size printed for people (list of increments with sizes, session statistics) reads as a number with a unit which differs from the size by at most a 199th of it; sizes under 1024 bytes, also negative ones, are exact, and a larger size is never shown as a smaller one. A duration reads as hours, minutes and seconds: a whole number of seconds exactly, another one less than a second off, and at most half a hundredth under a minute. None of these texts contains a newline, so that session statistics which contain them can be read back.", "quantifier": "all sizes (integers of any magnitude and sign), all durations which aren't negative, all statistics", "why_tests_cant": "Tests compare some texts; rounding, changes of unit and changes of precision interact at boundaries that no sample covers.", "anchors": ["src/rdiffbackup/utils/convert.py: to_human_size_str", "src/rdiff_backup/Time.py: inttopretty", "src/rdiffbackup/singletons/sstats.py: SessionStatsCalc._get_timestats_string, _get_filestats_string, _get_miscstats_string"]}
{"id": "C88", "title": "What a file system does with names is detected", "statement": "Before anything else, rdiff-backup examines what the file systems of source and repository do with names: whether case is distinguished, names with other than ASCII characters or with characters reserved by Windows are possible, names of DOS devices are special, and blanks and dots at the end are kept. With writing (in a temporary directory of the repository) exactly the abilities the file system has are detected. Without writing (the source, judged by the files which are there), case is detected rightly if any name has a letter, and taken as distinguished otherwise; device names are detected if there are any; dots which aren't kept are detected if there is any file. The examination fails only if looking at a file fails for another reason than permissions. Consequently a first backup can store every file of the source in the repository, and different files stay different.", "quantifier": "all file systems (any identification of names, any names refused), all trees of the source with any files which can't be looked at", "why_tests_cant": "Tests run on one or two file systems, with a few source trees; the detection has to be right for any tree on any file system.", "anchors": ["src/rdiffbackup/locations/fs_abilities.py: FSAbilities._detect_readonly, _detect_readwrite, _detect_extended_filenames, _detect_win_reserved_filenames, _detect_case_sensitive_readwrite, _detect_case_sensitive_readonly, _detect_escape_dos_devices, _detect_escape_trailing_spaces_readwrite, _detect_escape_trailing_spaces_readonly, detect_fs_abilities"]}
{"id": "C89", "title": "The selection options of the command line are those of the manual", "statement": "The selection options which the program accepts are exactly those in the manual, with an argument where they have one there. They reach the selection in the order of the command line, each with the meaning given there, with its argument unchanged; `--include` includes and `--exclude` excludes, lists are those in the files named, or what stands on standard input, in full. If a list can't be read, a size isn't a number, or an option isn't known, the program ends with a message before anything is selected. Restoring a part of a repository is refused just if an option names files. (Not so: four options to include things by their type are accepted and end the program with an exception, and so do two options which read standard input.)", "quantifier": "all command lines, arguments, contents of lists and of standard input", "why_tests_cant": "Options can be given any number of times in any order, with any arguments.", "anchors": ["src/rdiffbackup/utils/argopts.py: SelectAction", "src/rdiffbackup/actions/__init__.py: SELECTION_PARSER", "src/rdiff_backup/selection.py: Select.parse_selection_args, Select._init_parsing_mapping", "src/rdiffbackup/actions/restore.py: RestoreAction.check", "docs/rdiff-backup.1.adoc"]}
{"id": "C90", "title": "A repository within the source is warned of", "statement": "If the repository is in the directory to be backed up, so that each backup would be part of the next, `backup` warns, and tells it by its exit status; otherwise it doesn't, whatever slashes and dots the paths are written with and wherever the program is started. (Not so: if the source is `/` or `.`, or only one of the paths is absolute, it doesn't warn; and it does, without reason, if the repository's path goes up again with `..`.)", "quantifier": "all paths of source and repository, all current directories", "why_tests_cant": "The ways to write a path to a directory are unbounded.", "anchors": ["src/rdiffbackup/actions/backup.py: BackupAction._warn_if_infinite_recursion", "src/rdiff_backup/rpath.py: RPath.normalize", "src/rdiff_backup/SetConnections.py: get_connected_rpath"]}
{"id": "C91", "title": "A plug-in can't take the place of a built-in part", "statement": "Whatever other Python modules are installed, the name of a built-in action, or of a built-in kind of metadata, stands for the built-in one. A plug-in of someone else with a name of its own is offered under it, and nothing else is offered than the built-in parts and modules whose name has the prefix for plug-ins. Among the kinds of metadata there is exactly one main one, which comes first, and all others follow; else every action fails.", "quantifier": "all sets of installed modules, names, and names and classes of their plug-ins", "why_tests_cant": "A test installs a few plug-ins; which other modules a system has, in which order they are found and what they call themselves is arbitrary.", "anchors": ["src/rdiffbackup/utils/plugins.py: get_discovered_plugins, _iter_namespace", "src/rdiffbackup/actions_mgr.py: get_actions_dict", "src/rdiffbackup/meta_mgr.py: get_meta_dict, get_meta_list"]}

# Findings while reading /repo (working notes)

* F1 Time._tzd_to_seconds (Time.py:303) `-60*(60*int(tzd[:3])+int(tzd[4:]))`: for negative offsets with minutes
  (-03:30 Newfoundland) the minutes are added with the wrong sign => stringtotime(timetostring(t)) = t-3600.  Also "-00:30".
* F2 map/filenames._unquote_single (206) os.fsencode(chr(n)): for n>=128 yields 2 UTF-8 bytes => unquote(quote(x)) != x
  if chars_to_quote includes bytes >= 128 (check fs_abilities for \200-\377).
* F3 needs_regress (_repo_shadow 1649-1655) returns None when increments/ is empty even if two current_mirror markers exist
  (crash of 2nd backup before first increment inside increments/) ; then get_mirror_time -> -1 -> backup aborts (check actions/backup.py).
* F4 selection._FilterIterITRB: branch_excluded not inherited by sub-branches: restore with --exclude-regexp differs from Select
  (subdir of excluded dir is re-evaluated).
* F5 _lock (2088-2093) returns None for readers if lock file missing: reader proceeds with no lock.
* F6 SymData with empty link target: line_parsing_regexp needs `.+` (stdattr 68).  uname/gname with newline not quoted.
* F7 size sel_func: `(size<=max) and None` returns False(==EXCLUDE 0) or None.

F8. `acl_unquote`/`acl_quote` C helpers (`src/cmodule.c`): `acl_unquote` decodes in place in the buffer of the
bytes object it was given, i.e. it changes its (immutable) argument.  The Lean model is functional.

F9. `_RepoPatchITRB._set_dir_replacement` (a directory replaced by something else) whose transfer fails makes
no increment and no increment directory for the directory, while its contents are still processed: their
increments may fail, and the final `rmdir` may abort the session.  The model leaves out failing transfers
where the mirror has a directory.

F10 `rdiff-backup remove increments` does not look at needs_regress (actions/remove.py 87-165). On a repository left
by an interrupted backup (markers t0 and bad > t0) with `--older-than` later than t0, removal_time = t0 + 1
(RS 1466, the increments of the interrupted session carry the time t0), so mirror_metadata.t0, all *.t0.* increments
and the marker current_mirror.t0 are deleted: the only way back to the last good backup is destroyed and the
repository then looks like a complete backup at `bad`.

F11 removal refuses to remove more than one increment without --force by counting `increments.<time>.dir` files only
(RS 1416-1419). A session in which nothing changed leaves no such file, so two backups (t0, and t1 with no change) can be
removed without --force.

F12 `remove_increments_older_than` deletes files in the order of listdir, and computes what to remove only from the files
`increments.<time>.dir`. If it is interrupted after that file is deleted, the rest of that backup stays: it is still listed (by its
metadata), restores to wrong contents, and is not found by another removal. (C09 `interrupted_removal_leaves_broken_backup`)

F13 `genstrtotime` tests the result of `stringtotime` for truth, so the time string of the epoch (1970-01-01T00:00:00Z, time 0) is refused.
Also `_session_regexp` accepts "3B\n" and then fails with ValueError. (C19 `epoch_refused`)

F14 Increments of `foo` are found by listing the directory and looking at names only (RS 3092-3098, 1245). A source *directory* called
e.g. `foo.2002-04-26T04:22:01Z.diff` has an increments directory of that name, which is taken for an increment of `foo`. (C22 `lookalike_listed`)

F15 `RORPath.__eq__` ignores the type when the new file is special and the recorded one an empty regular file (rpath.py 157-159), so an
empty file replaced by a fifo or socket with the same times, permissions and owner is not backed up again. (C48 `fifo_undetected`)

F16 `FilterIter` (restore, compare, list) raises ValueError for a file that is not a directory and for which a condition asks for a scan
(selection.py 919-920), e.g. with `--include '**.py' --exclude '**'` at the first other file. (C28 `scanned_file_raises`)

F17 `FilterIter`: a directory to be scanned in which nothing is selected stays in base_queue and is output with the next included path.
(C28 `empty_scanned_directory`)

F18 A file list which excludes something is asked twice about each file (`_select_filename` 122-135 only skips conditions which cannot exclude);
an included entry is used up by the first question, so that the next condition decides about the file. (C26 `included_by_mixed_list_lost`)

F19 `--exclude-other-filesystems`: `_select_filename` calls the condition with a path without data: KeyError 'devloc'. (C26
`exclude_other_filesystems_fails`)

F20 A file list with `- a/1` and `+ a/2` includes `a/2` but not its parent `a`. (C29 `parent_not_included`)

F21 Globs: `[!b]` matches `/`, and `\**` is taken for `**` when the prefixes to be scanned are computed: directories above a match may not be
scanned, and the file is not backed up. (C30 `class_matches_slash`, `escaped_star_cut`)

F22 Globs: `$` also matches before a newline at the end of the path. (C30 `newline_at_end`)

F23 The glob `*` matches all absolute paths. (C30 `star_matches_absolute`)

F24 `?` and classes match single bytes, not characters. (C30 `question_matches_byte`)

F25 Hard links: if the first member of a source group had a single-link file in the mirror and a later member a file linked with something else
(`ln -f g2 g1; rm h` where the mirror has g1 alone, and g2 and h linked), `dest_key` is "NA" and is not used up by the first member (`rorp_eq` returns
earlier because the link counts differ), so the later one is taken to be equal (128-132) and kept: the mirror's files are not linked. Metadata, and so
restores, are right. (C31 `not_linked_na`)

F26 Hard links: if the recorded metadata of the first member lacks a SHA1 digest, the first member is replaced and the later ones are kept, so that
the link is lost in the mirror. (C31 `not_linked_digest`)

F27 Two initial backups to the same new directory, started at the same time without --force, can both run: between `mkdir` of `rdiff-backup-data` and
the creation of the lock file by the first, the second takes the directory for a failed initial backup without lock file and removes it (RS 356-383),
along with the lock file which the first has created and locked in the meantime. (C32 `two_initial_backups`)

F28 (not modelled) `setup` compares the current time with the mirror's before taking the lock (RS 157-163): a backup started earlier which gets the
lock later may still run with a time before the newest session.

F29 `--preserve-numerical-ids` has no effect: argparse stores it as `preserve_numerical_ids`, and location.py 202 reads `preserve_num_ids`.
(C33 `numerical_option_ignored`, `numerical_option_wrong`)

F30 With a user or group mapping file, an ACL entry for a number which has no name and is not listed is dropped (owners.py 159-172), though without
mapping file it is kept. (C33 `acl_number_dropped`)

F31 usrgrp.py: with two names for one id (root, toor), the name found for the id depends on the lookups before. (C33 `cache_not_transparent`)

F32 `LowLevelPipeConnection._read` (connection.py 328-332) does not check that it has got as many bytes as asked for: the data of a raw buffer which are cut off by
a broken connection are returned as if they were complete (only the 9 bytes of the header are checked). (C34 `cut_data_accepted`)

F33 `IterVirtualFile.close` (iterfile.py 153-159) sets `self.buffer = ""` (text), to which the next block (bytes) can't be added: skipping or closing a file with two
or more blocks which have not been fetched raises TypeError (once for each block). (C35 `skipped_file_fails`)

F34 After an exception of the other side was raised by `IterVirtualFile.read`, `close` raises AttributeError (`close_value` was never set).
(C35 `close_after_error`)

F35 `compare --method full` with a selection: a file which is in the backup and excluded from the source is looked up in the directory nevertheless
(_dir_shadow.py 230), and if it exists with the same size AttributeError is raised, because no data were attached (RS 1506-1513). With the other methods it is
reported as deleted. (C39 `full_excluded_fails`)

F36 `compare --method full` raises AttributeError if the base directory is not in the backup at that time (RS 1500: `src_rorp and src_rorp.index or
mir_rorp.index`, the index of the base directory is `()`). (C39 `full_no_root_fails`)

F37 `compare --method hash`: if only the first link of a file has a recorded digest (older versions) and it isn't in the directory any more, changes of the
other links are not seen. (C39 `hash_of_link_missed`)

F38 `ChangedFiles` counts unchanged directories in which something changed, if they are still in the cache when they are finished (RS 2727-2729, 2446).
(C41 `reported`, example in C41Session)

F39 Numbers above 2^53 are changed by writing and reading the statistics file, because `float` is used for reading (sstats.py 325). (C41 `big_sizes_change`)

F40 A file that differs but whose mirror file is no regular file any more when its signature is made is not flagged as changed (RS 591-594), and
`SourceFileSize - MirrorFileSize` isn't explained by the other numbers then. (C41 `balance_fails_without_signature`)

F41 The counter file `next_free` of the directory for long names is deleted and written anew (longnames.py 296-304). If the program is killed in between, the counter is
found again from the files in the directory; but names given for increments which don't exist yet have no file there and are given
a second time, and then the increments of two files are mixed. (C42 `name_reused_after_crash`, `increments_mixed_after_crash`)

F42 If the program is killed when `next_free` is created but nothing written yet, `int("")` raises ValueError in every later session that needs a
substitute name. (C42 `stuck_after_crash`)

F43 (not modelled) A directory that is new in a backup and has less than rwx for its owner keeps rwx in the mirror if the backup isn't run by root: end_process_directory
(RS 2548-2556) relaxes it "until the end of the backup process", but it is only put back if it was in the mirror before with such permissions (RS 2340-2358).
Metadata (and restores) are right, and the next backup corrects it.

F44 `parse_location` (SetConnections.py 191-193): the group `(\\{2})*` returns only its last repetition to `re.split`, so that of several (escaped) backslashes at the end of the
host only one is left. (C45 `host_backslash_lost`)

F45 A path which consists of (escaped) backslashes is taken for the backslashes of the host by lines 200-207: `h::\\` becomes the local path `h/`, and `\\` alone gives
"No location could be identified", which the comment deems impossible. (C45 `host_taken_for_path`, `backslash_not_parsed`)

F46 Backslashes in paths are always changed to slashes (line 266), not only on Windows: `foo\::\\bar` is `foo::/bar`, not `foo::\bar` as in the manual, and
files with a backslash in their name can't be given on the command line. (C45 `manual_example`)

F47 Two calls the program makes of a server are refused at every security level: `sstats.SessionStats.add_error_local` (call in sstats.py 387; Security.py 276 lists
"SessionsStats"), and `_repo_shadow.RepoShadow.get_statistics` (RS 1146), which is in no list, so that `calculate` doesn't work remotely. Likewise `conn.os.listdir`
(filenames.py 85) and `conn.open` (rpath.py 905). (C46 `add_error_refused`, `get_statistics_refused`)

F48 `rpath.get_rpath_data`'s first argument is a path but the function isn't among the file requests, so the metadata of any file can be read from a server
restricted to a directory. (C46 `rpath_data_unrestricted`)

F49 Of an rpath only base and index are joined and checked, but what an index with an absolute component means is decided elsewhere; and the indices within iterators
(`WriteDirShadow.apply`) aren't checked at all (the latter not modelled). (C46 `absolute_index_escapes`)

F50 `RepoShadow.setup` calls `Security.reset_restrict_path` with the repository's base directory, so a server restricted to a directory within a repository gives
access to the whole repository afterwards. (C46 `enclosing_repository_escapes`)

F51 `--restrict-path .` refuses everything below the current directory: the normalised restriction is `.`, and no other normalised path starts with the component
`.`. (C46 `current_directory_refused`)

(not modelled) A read-only server still executes `RepoShadow.init`/`setup` with `must_be_writable`, which create directories and the lock file, and
`log.open_logfile_local`, which writes a file within the restriction. Symlinks within the restriction are followed.

F52 Restoring into an existing directory: a regular file is left alone if no SHA1 was recorded for it and its attributes and size are the same, whatever its content
(RS 962-973). On the other hand, files with recorded SHA1 always differ, because the SHA1 is a key of the one and not of the other (rpath.py 160-169), and are always
written anew. (C44 `kept_without_digest`)

F53 `rdiff-backup remove file` replaces the metadata files one after the other, before anything else. An interruption in between leaves backups in which the file to be
removed restores, without any message, to the version of another backup. Nothing detects this; repeating the command repairs it. (C52
`interrupted_removal_wrong_version`, `interrupted_removal`)

F54 In `file_statistics` files, `remove file` takes every line starting with the path and a blank (RS 1257): removing `a` also removes the line of a file `a b`, and the
header lines if the file is called `#`. With `--null-separator` statistics the whole file is one line. (C52 `statistics_blank`)

(not modelled) `remove file` does not check for an interrupted backup (as in F10). Of a group of hard links only the first one carries the SHA1; removing it leaves the others
without.

F55 Names of extended attributes are quoted when they are written (ea.py 272) but not unquoted when they are read (ea.py 240): an attribute `user.my attr` is restored as
`user.my\040attr`, and as it never compares equal its file is taken for changed in every backup. Names of attributes with an empty value are not quoted at all: with an
`=` (or a newline) in such a name the record can't be read and all attributes of the file are lost. The test for lines starting with `#` (ea.py 232) compares a number
with a byte string and is never true. (C53 `ea_names`, `ea_kept_iff`, `ea_record_lost`)

F56 ACL entries are written with the name of the user or group if there is one, else the number, without a mark which of the two it is: a user whose name is a number (for
Python's `int`, so also `1_000`) is restored as the user with that number. A name containing `#` or `:` makes the record unreadable. Because the number isn't recorded
beside the name, numerical maps (`_NumericalMap`) would drop all entries with names. (C53 `numeric_name_lost`, `hash_name_lost`)

F57 `get_source_rorp` (RS 2281-2290) falls back to the list of parent directories for an index which is not in the cache, but the assertion before it refuses every index
which has left the cache: the fallback can never be reached. So a directory whose entry is dropped can't be asked for its source, and `update_hash` would end the backup; it doesn't
happen because the directory is processed in time (C54 `cache_holds`, last part; `remote_same`). If a diff came later than that, a file would end the session with an exception and a
directory would silently keep its old record although it was updated (`_prepare_dir` RS 2727 asks `in_cache`). (C54 `late_fails`, `late_stale`)

(not modelled) `CacheIndexable.__next__` refers to `self.WARNING`, which doesn't exist (rorpiter.py 281); only reached if an index occurs twice.

F58 An interrupted regress (forced or not) from the second to the first backup may not be noticed: the last but one operation is the removal of the increment of the root
directory, then `increments` may be empty, and `needs_regress` answers None although there are still two markers (as in F3): `regress` does nothing and backups are refused.
With `--force` the outcome depends on which of the two markers is listed first (`get_mirror_time`, RS 770-774, takes element 0 although its description says "the last time").
(C55 `force_stuck`)

F59 A first backup which is killed leaves its lock file, so that the next attempt is refused without `--force` although the lock itself is gone: `_create` (RS 356-377) looks at
the existence of the file, `_lock` would have found it free. If the removal of the remains is itself interrupted after the data directory is gone, the next attempt is again refused
without `--force`, now because the directory doesn't look like a repository (`_is_writable`, RS 320-347). Nothing is lost in either case. (C56 `first_locked`)

F60 `_CachedRF._get_rf` (RS 2855-2874) never ends when asked for a file of which neither the mirror file nor an increment is left, if it would come last in its directory and
anything else is left there: the entries of the directory are listed, skipped one after the other, then listed again, for ever. So one lost file (of which the metadata knows)
makes every restore, verify and full comparison of the backup hang, instead of the warning and the empty file which `get_fp` has for this case. (C57 `lookup_ends`,
`search_never_ends`, `restore_hangs`)

F61 `verify` and `compare` do not check whether the last backup was interrupted (restore does). Two `current_mirror` files are there then, and `get_mirror_time` takes the one
listed first by the operating system. If it is the older one, the newest complete backup is compared with the mirror as the interrupted session left it: false reports of
corruption. If it is the newer one, the default `--at now` verifies what is recorded of the failed backup, and may report that all is well. (C58 `interrupted_false_alarm`)

F62 (not modelled) `CompareAction.setup` returns `ret_code & RET_CODE_ERR` if the time can't be parsed, which is 0: the comparison is started all the same, with the time None, and
ends with a TypeError in `_set_restore_time`.

F63 `rdiff-backup list increments --size` of a path which exists only in older backups ends with a KeyError: `Select` (selection.py 274) yields the missing path itself, of which
`getsize` (rpath.py) asks for `data["size"]`; `list increments` without `--size` works for it. (C62 `sizes`, `gone_path_fails`)

F64 `rdiff-backup list increments` doesn't list a backup if nothing had changed when the next one was made: no increment is written for the root directory then. The backup can be
restored by its time (C01), but there is no way to learn this time from the listing, and "Found n increments" is less than the number of backups.
(C61 `session_directory`, `not_all_listed`)

F65 A file whose own name looks like that of an increment (`log.2002-04-26T11:22:01Z.data`) can't be restored by its path: `_get_repository_dirs` (RS 464-474) takes it for an
increment outside of `rdiff-backup-data`, and the restore is refused. (Its directory can be restored.) (C63 `lookalike_refused`)

F66 `_get_repository_dirs` (RS 475-488) looks for the first `rdiff-backup-data` and the first `increments` in the path. If a directory above the repository is called `increments`,
no increment of the repository is accepted; if the repository is below the `rdiff-backup-data/increments` of another one, the other one is used. For a repository in the root directory
the base directory becomes the empty path (RS 496-498), which is the current directory. (C63 `increments_above`, `wrong_repository`)

F67 If a repository was itself backed up, then for a path in its mirror the inner repository is found, not the one which contains the backup; what is restored is then something else
than the file given. (C63 `nested`)

F68 Where colons are quoted (or with `--chars-to-quote`), an increment given by the name which it has on the disk isn't recognised: `_get_repository_dirs` uses the unquoted
`StoredRPath.isincfile`. It is then taken for a sub-path of the mirror, and "now" is restored: as there is no such path in the backup, what is at the target is deleted (F69), or the restore fails if nothing is there. Likewise for quoted names of
files: `get_quotedrpath` (map/filenames.py 164) takes the index as it is and quotes it once more. (C63 `quoted_time`)

F69 Restoring a path which isn't in the backup at that time (a typing error, a file younger than the time) isn't an error if something is at the target: the diff for the target says "missing"
(RS 977-983), so the target is deleted, and "Restore successfully finished". With an existing file or an empty directory as target, `--force` isn't needed. (C44 `absent_deletes`, `Demo.absent_file`)

F70 `WriteDirShadow.check` (DS 315-334) asks for `--force` only if the target is a directory which isn't empty. An existing file at the target is overwritten without. (C44 `Demo.file_overwritten`)

F71 `restore --force --exclude PATH` fails midway if a directory of the target contains an excluded file and isn't a directory in the backup: `end_process_directory` (DS 442-453) calls `rmdir`, which is refused; the
files which come later aren't restored. (C64 `blocked`, `restore_paths_partial`, `Demo.midway`)

F72 The selection is applied to the backup and to the target separately. With `--max-file-size` (or `--min-file-size`, `--exclude-symbolic-links` and other conditions on the type), an excluded file of the target is overwritten if the
one of the backup isn't excluded, and a file of the target which isn't excluded is deleted if the one of the backup is. (C64 `Demo.large_overwritten`)

F73 Because of F4, `--exclude-regexp` which matches a directory but not what is below it restores subdirectories of the excluded directory (files directly in it are left out), and fails if the excluded directory is missing in the
target. (C64 `Demo.regexp_inside`)

F74 If the selection matches nothing in the backup (`--include '*.txt' --exclude '**'` without such files), then the root of the backup isn't selected, but that of the target always is (selection.py 274). The restore then removes the target
directory if it is empty, and fails otherwise, after the selected files of the target have been deleted. (C64 `Demo.nothing_matches`)

F75 If the transfer of the first of several links fails (e.g. because the file is being changed while it is read), then the later links, which share its inode in the mirror, are found "already linked": their attributes are set and
they are recorded as backed up, with the old contents. Later backups see the recorded attributes and keep the old contents for ever, without an error. (C65 `first_link_fails`)

F76 Three links A, B, C; B fails in one backup, then A is deleted in the source. The next backup hands A's recorded digest to B's mirror file (hardlinks.py 62-65), so B's new contents, equal to A's, are taken for unchanged: B's old
contents are recorded as the new ones, and C, which had the new contents, is made a link to it. No error is logged. (C65 `wrong_digest`)

F77 (not modelled) If a directory of the mirror is replaced in the source by a hard link which is not the first of its file, the diff has no file type (DS 155-156) and `_set_dir_replacement` (RS 2702) raises KeyError: the backup is aborted.

F78 (not modelled) Restoring: the same in `_DirPatchITRB` if a directory stands in the target where a later link is to be restored: there is no file to copy.

F79 Setting attributes of a mirror file which is still shared with other links (a link was split off in the source, same contents, other attributes) changes them for the others in the mirror. The records are right, but a later new link
fails with "does not match source". (C65 `no_reason`)

F80 Restoring over the original, unchanged files through a connection (the target is listed ahead): the first link is always replaced, as the metadata have a digest and the listing has none, while later links, listed with the recorded inode,
are kept. The restored files are no longer linked; a second restore links them again. (C66 `link_lost`)

F81 For a file system which ignores the case, only the letters A to Z are quoted (FA 991-992). Such file systems ignore the case of other letters too: `É` and `é` of a case sensitive source are written to the same file. (C67 `other_letters`)

F82 Whether device names and trailing blanks and dots are escaped is decided at the first backup only (FA 916-941). If the source of the first backup couldn't have such names, they aren't escaped for a later source which can; unlike
characters which newly need quoting, this isn't an error. (C67 `escapes_not_added`)

F83 If no characters need quoting, then device names and trailing blanks and dots aren't escaped, although the configuration says so: `_setup_quoting` (RS 222) makes no quoted paths. (C67 `escapes_alone`)

F84 A source whose first level has no names with letters is taken for case sensitive (FA 414-424). When it later turns out not to be, the needed quoting has changed and every further backup fails. (C67 `sensitivity_found`)

F85 `--chars-to-quote` given for other actions than backup isn't compared with the repository's configuration (FA 1127-1133): a restore with another value restores names as they are quoted. (C67 `option_not_checked`)

F86 `get_cutoff` (sstats.py 192) adds NewFiles twice and never DeletedFiles: when many files are new, directories with all of the changes aren't listed (ratio 0.6, all of four new files in one directory); when files are only deleted,
everything is listed. (C68 `cutoff_wrong`)

F87 Lines of file statistics beginning with `#` are taken for comments when read (fstats.py 375), but names aren't quoted for that: a file or directory of the first level whose name begins with `#`, with all in it, isn't counted. If what
is left doesn't reach any of the cut-offs, `calculate statistics` fails with an AssertionError. Names are also shown quoted. (C68 `hash_ignored`)

F88 A directory with a directory called `rdiff-backup-data` isn't refused as target of a backup (RS 327-332), and if this directory has no file whose name begins with `current_mirror`, it is deleted with all in it without `--force`
(RS 356-385, 417-444), as if it were of a failed first backup. (C69 `user_directory_deleted`)

F89 The same is done for `regress` and `remove`, even `remove file --dry-run`: of a repository which has lost its marker, and has at most one metadata file and one error log and no lock file (of an older version), all increments are
deleted. (C69 `increments_deleted`)

F90 Every action which writes leaves `lock.yml` behind (RS 2123-2126), so that what is left of an interrupted first backup is always taken for one which may be running: it is never cleaned up without `--force`, although the lock on the
file, which would tell, is free. (C69 `interrupted_refused`)

F91 The exit status of a backup, a restore or a regress doesn't tell that files failed: `RET_CODE_FILE_ERR` is never set by them (backup.py 131-156, RS 262-295), although the manual page says so for status 4 (with the remark that statuses
aren't fully implemented). A backup in which files failed ends with 0. (C70 `file_errors_not_told`)

F92 `compare` with a time which can't be parsed doesn't stop: compare.py 109 has `ret_code & RET_CODE_ERR`, which is 0, for `|`; `run` then raises a TypeError (RS 940). (C70 `compare_without_time`)

F93 The check of `test` which would let the remaining connections be tested when some failed (test.py 69-85) is never reached: `main_run` (run.py 90-97) has returned an error before. (C70 `test_exact`)

F94 `calculate statistics` neither checks nor sets up the repository (no `check` and `setup` in calculate.py), and its `pre_check` calls `run` of the base class instead of `pre_check`: for a repository which doesn't exist it only warns that
there are no statistics; it reads without lock, and without the repository's quoting of names. (C70 `calculate_unchecked`)

F95 `AttrExtractor._record_to_object` (stdattr.py 151) uses `index` without its having been assigned if a record has no field `File`: an UnboundLocalError, which `iterate` (meta/__init__.py 58) doesn't catch. If the first
line of a metadata file is damaged, or the name in any `File` line is lost, all records from there on can't be read. (C71 `first_record`, `empty_name`)

F96 If a metadata file ends inside of a `File` line, the complete record before it is read with the cut off name: `(.+)$` of the field doesn't need a newline (stdattr.py 68) while the boundary of records does (stdattr.py 67). (C71 `truncated_name`)

F97 Reading metadata restricted to a path stops at the first name which isn't before it, and ends if this isn't the path (meta/__init__.py 122, 92): a damaged name which sorts later hides the intact records of the path. (C71 `restricted_lost`)

F98 If the repository's file system doesn't support extended attributes (or access control lists), a change of only these (as by `setfattr`, `setfacl`; the modification time stays the same) is never recorded: they aren't compared unless
they are also written to the mirror (rpath.py 91-94), the file is taken for unchanged and its old metadata are recorded again. (C72 `change_lost`)

F99 In a backup on one machine, `_update_triple` (FA 980-983) sets `eas_conn` (`acls_conn`) of the one connection twice, and the repository's value stays. If only the repository's file system supports them, every path of the source gets
(blank) attributes, the recorded ones haven't any, and all files are taken for changed in every backup. (C72 `unchanged_iff`)

F100 `compare` has no options of FILESYSTEM_PARSER (compare.py 41), so that `values.get("eas")`, `values.get("acls")` are `None` and attributes aren't compared; nor are hard links. (C72 `compare_blind`)

F101 Neither has `regress` (regress.py 38-42): `preserve_hardlinks` becomes `None` (FA 847-851), and a regress which recreates the metadata of the time regressed to (each forced one) writes them without NumHardLinks, Inode and DeviceLoc
(stdattr.py 190): the links of this backup and of all earlier ones which depend on its metadata can't be restored any more. (C72 `links_lost`)

F102 compare sets the repository up as a backup does (compare.py 103), and compares the quoting which it has with the one the file systems need. But the repository's file system isn't written to, and what isn't detected counts as not
needed: for a repository on a file system like those of Windows and a source on Linux, `A-Z;` is suggested, the repository has more, and compare always fails. (C67 `compare_impossible`)

F103 The API version is settled with the first server alone (SetConnections.py 480-493), and must then suit the others. With servers which know 219-299 and 230-320, `backup` from the second to the first one works with version 230, from
the first to the second one it fails, with a message about a version "explicitly set locally", although nothing was set; `--api-version 230` helps. (C73 `order_matters`)

F104 SetConnections.py 406 reads `specifics.api_version["actual"] == 200`: a comparison without effect instead of an assignment. Only for programs which know version 200, as by RDIFF_BACKUP_API_VERSION. (C73 `old_server`)

F105 The check of the remote schema (SetConnections.py 289-293), made "for security reasons", looks for fields which aren't preceded by an opening brace, and have no brace inside. `{{{h.__class__}}}` and `{h:{h}}`, next to `{h}`, get past it, and `format`
evaluates attributes, conversions and formats. (C74 `not_only_placeholders`)

F106 A single brace in the remote schema (as of a shell function) raises ValueError in `format`, which isn't caught (309 has TypeError and KeyError): traceback instead of "Invalid remote schema". (C74 `single_brace`)

F107 `{{h}}`, the way to write `{h}` literally, is refused if it is part of a schema: the second expression finds it, the first one doesn't. (C74 `doubled_refused`)

F108 The argument of --remote-tempdir is added to the schema before it is filled (SetConnections.py 66-67): braces in the name of the directory are interpreted or refused. Neither is it quoted for the remote shell. (C74 `tempdir_braces`)

F109 Where a symbolic link or a fifo can't be renamed (EXDEV), `rpath.rename` copies it, without its attributes, which had been copied to the temporary file before: owner (and permissions and times of a fifo) are lost. (C75 `fallback_loses`)

F110 `rpath.rename` takes two paths for hard links of the same file if the inode numbers are the same, without looking at the device: the source is then deleted and the target stays as it was, with only a warning. (C75 `number_only`)

F111 `rpath.copy_attribs` gives everyone read and write permission (`| 0o666`) while extended attributes are written; a file with mode 600 can be read and changed by everyone in the meantime, and stays so if the program is killed there. The directory's
permissions are the only protection; the mirror's directories have those of the source. (C76 `everyone`)

F112 `copy_attribs` sets the permissions before the access control list. The group bits of a file with such a list are its mask: until the list is written (or for ever, if the target has no lists), the owning group has all the permissions of the mask.
(C76 `owning_group`)

F113 `copy_attribs` changes the owner before the permissions; on a file which is there already, the new group (or owner) has the old permissions in between, which neither the old nor the new attributes allow. (C76 `new_group`)

F114 `Select._get_relative_index` compares the components of paths only: an absolute path is taken for the relative one with the same components and the other way round, whatever the current directory. With the source given as `home/me` (in `/mnt`), `--exclude /home/me/x`
excludes `/mnt/home/me/x`, instead of being refused. (C77 `relative_as_absolute`)

F115 The data of a new file (`_patch_to_temp`) are not synchronised before the temporary file is renamed over the old one, though the increment is. On file systems which don't write data before renames, a power failure may leave the new name with incomplete
data; the increment is a delta from the complete new file, so the old content can't be restored from it. (C78 `not_flushed`)

F116 `_restore_orig_regfile` writes the file directly, without fsync, if it isn't in the mirror or is of another type there, then synchronises the directory only and deletes the increment (a snapshot). If the power fails before the end of the regress, the file
may have lost its data and the increment be gone. (C78 `written_directly`)

F117 `_restore_orig_regfile` calls `fsync_with_dir` before `copy_attribs`: the attributes of the restored file may be lost by a power failure. If the metadata have no hash (all but the first of several hard links), the next regress doesn't see that the data are
restored, and applies the delta to them again. (C78 `no_hash`)

F118 A regress killed between the rename of the restored file and the fsync of its directory, and then started again, finds the file restored and deletes the increment without synchronising the directory. A power failure may then bring back the file of the
failed backup without the increment. (C78 `killed_then_failure`)

F119 The first backup: `touch_current_mirror` synchronises the marker when everything is done, but nothing synchronises the mirror before (`C.sync()` is called by `remove_current_mirror` only, which the first backup doesn't call). After a power failure some
seconds later, the repository has a marker and complete metadata and counts as good, whatever became of the files. (C79 `first_backup_lost`)

F120 `remove_current_mirror` doesn't synchronise the removal of the older marker. A power failure shortly after a backup which was reported as successful may bring it back; the next session then undoes the complete backup. (C79 `complete_then_undone`)

F118 also concerns metadata: a regress killed between the rename of the recreated metadata and the fsync of the directory, then started again, and a power failure: the metadata of the last good backup are lost. (C79 `killed_then_failure`)

F121 A file which has no substitute name gets one for its increments when these no longer fit (the repository is used under a longer path, or was copied to a file system with shorter names), but only the new metadata say so. Restoring an older
backup looks for the increments at the usual place, finds none, and restores the newest data as those of the older backup, without a warning. `find_inc_pair` (longnames.py 140-158) would have to keep the place of files which are already there. (C80 `restore_wrong`)

F122 `update_existing_rf` (longnames.py 218-224) raises an exception ("the following line doesn't make any sense but does it matter?") if a file has a substitute name for the mirror in the metadata of the time, and its path exists in the mirror now. This happens
when the name fits at last (the repository was moved). The file as it was then can't be restored. (C80 `restore_fails`)

F123 A new file in the source called `rdiff-backup.tmp.N`, where N is the number of the next temporary file, is lost. `get_temp_rpath` takes this name since nothing has it in the mirror, the data are written there, `rename(tf, mirror_rp)` renames the file to
itself, and the "final clean-up" (`_repo_shadow.py` 2529-2532, 2777-2780) deletes it. The metadata list it; later backups think that it hasn't changed. Nothing is reported. A source with leftovers of an interrupted restore (such names), whose
numbers start at 0 as those of every process do, makes this likely. (C81 `file_lost`)

F124 `recreate_attr` (meta_mgr.py 116-148) writes the metadata compressed only if compression is on, but always names them `mirror_metadata.T.snapshot.gz`. After `rdiff-backup --force regress --no-compression`, or a backup with `--no-compression` which first
undoes a failed one whose metadata had already been turned into a difference, these metadata can't be read ("Not a gzipped file"): the undoing itself, all later backups and restoring any older state fail, since older metadata are differences to them. The differences
were deleted. (C83 `recreated_unreadable`)

F125 `regress` and `remove` open a log file (`regress.log`, `remove.log`) and say so to all connections, but `Repo.setup` sets `is_backup_writer` and `backup_writer` only if there is a source directory: `Log.__call__` then writes to the terminal only, and these
log files remain empty for ever. (C84 `single_log_empty`)

F126 `Logger.exception` compares `verbosity >= self.term_verbosity` where `__call__` compares `>`: an exception which isn't to be written into a file (e.g. of level 5 with `-v5`) isn't shown. (C84 `exception_not_shown`)

F127 A directory of the source which can't be listed, even for a moment (stale NFS handle, permissions, I/O error), is an empty directory for the backup: an error is logged, but all its files are removed from the mirror as if they had been deleted (increments
remain). This is so for the root of the source, too, which nothing checks to be readable; with F91 the exit status doesn't tell. (C85 `unlistable_is_empty`)

F128 `rdiff-backup complete --no-unique` always ends in an `UnboundLocalError`: `options_set` (complete.py 227) is only set if `unique`. (C86 `not_unique_crashes`)

F129 `_get_possible_sub_options` (complete.py 176-183) has no branch for a cursor in front of the sub-action, returns `None`, and `run` iterates over it: TypeError, e.g. when completing `--he` in `rdiff-backup list --he files`. (C86 `before_subaction_crashes`)

F130 Options with values but without a `type` for argparse (`--at`, `--method`, `--newer-than`, `--older-than`, ...) aren't recognised by the completion: after `restore --at ` options are proposed, after `compare --method ` not the methods. (C86 `untyped_value`) The value
of an option which is called like an action is taken for the action (`value_as_action`). Choices are proposed even if they don't start with what has been entered.

F131 `inttopretty` (Time.py 148-172) of a negative number of seconds: `divmod` gives negative hours, which are left out, and the rest is positive. If the clock is set back during a session, `ElapsedTime -5.00 (59 minutes 55.00 seconds)` is written. (C87 `negative_wraps`)

F132 `_detect_escape_dos_devices` without writing (fs_abilities.py 133-154, 652-680) looks for `con` in the source directory itself: a file of that name on Linux is taken for a device, so the source seems to have device names too, and they aren't escaped in a repository on a system which has them; `con` can't be stored. (C88 `con_in_source`)

F133 `_detect_escape_trailing_spaces_readonly` (fs_abilities.py 724-764): on a file system which ignores case but keeps dots, with `A` and `a.` in the source directory, `A.` isn't in the listing but found; dots at the end are taken not to be kept by the source, and aren't escaped in a repository which doesn't keep them. (C88 `dots_and_case`)

F134 `_detect_case_sensitive_readonly` (fs_abilities.py 380-397): an error (e.g. EIO) when looking at a file which is listed before any name with letters isn't caught there, the detection fails (766-782) and there is no backup at all, while the backup itself would only skip this file (C85). (C88 `error_stops`)

F135 `--include-device-files`, `--include-fifos`, `--include-sockets` and `--include-other-filesystems` are in the manual and accepted by the parser (actions/__init__.py 145-199, "SELECT" stands for both), but not in the dictionaries of `Select._init_parsing_mapping` (selection.py 208-221): the program ends with `RuntimeError: Bad selection option`. (C89 `broken_fail`)

F136 Two options which read a list from standard input (e.g. `--include-filelist-stdin --exclude-globbing-filelist-stdin`): `SelectAction.__call__` (argopts.py 120-129) closes standard input after the first, and the second's `read` raises `ValueError`, which isn't an `OSError`: the program ends with an exception instead of a message. (C89 `stdin_twice`)

F137 `_warn_if_infinite_recursion` (backup.py 157-177) compares the repository's path with the source's and a slash: for the source `/` that's `//`, so `rdiff-backup backup / /backup`, the most usual case, is never warned of (and there's no exclusion of the repository but of `rdiff-backup-data` at the top of the source); nor if the source is `.`, or only one of the paths is absolute. (C90 `root_missed`, `current_missed`)

A note on method: once, by mistake and against the rules, `to_human_size_str` was called from a Python shell with /repo on the path, to look at a few outputs. Nothing here rests on it; the bytecode it left was removed.

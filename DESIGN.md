# Formal model of rdiff-backup in Lean 4 — design

## 1. What is verified and how

The model is a set of small, total, computable Lean definitions, one per Python function (or per group of
functions that only make sense together).  Every definition carries a comment with the file and lines of `/repo`
it models and the simplifications made; `notes/model-index.md` lists all of them.  Nothing is extracted or run
from `/repo`; the link between Python and Lean is a reading, and that reading is part of the trusted base.

Layout under `lean/Verif/`:

* `Model/*.lean` – the program, function by function (definitions only)
* `Spec/*.lean`  – what the English property says, written without reference to how the program works
* `Proof/*.lean` – lemmas and invariants
* `Props/*.lean` – the property theorems, each followed by `example`s showing a concrete non-trivial case that
  meets the hypotheses, and by negation witnesses (theorems that the claim is *false* of the program at a given
  input) where the code does not have the property in full

Proof methods: structural induction, invariants over arbitrary histories (an inductive predicate `Reach` of
repository states), refinement of the on-disk representation to an abstract history (`List (Time × Tree)`), "every
prefix of the list of file-system steps" for crash points, and interleaving semantics (an inductive step relation)
for processes.  There are no bounds on sizes, depths, lengths of histories or number of steps.

Where the program is wrong, the theorem is stated for the largest class of inputs for which it is right, has the
suffix `_partial`, and a witness shows that it fails outside; the defect has a number Fnn in `notes/findings.md`.

`seeded/LOG.jsonl` records the wrong programs the theorems were tested against (tools/mutate.py makes them),
`MANIFEST.json` the status of each property (tools/mkmanifest.py), `notes/axioms.md` the axioms of each theorem.

## 2. Per property: model, theorems, method

File names are relative to `lean/Verif/`.  Theorem names without prefix are in the namespace of the property
(`Verif.C01.restore_exact`).

### The repository (C01–C06, C09, C10, C41, C44)

`Model/Repo.lean` is the central model: source tree, mirror, increment files, `increments.<time>.dir` markers,
`current_mirror` markers, metadata files.  A backup session is the list of atomic file-system steps the program
makes: comparing the source with the metadata of the mirror (`Collate`), the signatures and diffs sent, the CCPP
cache with its flags (of unlimited size here; C54 justifies this), the tree reducer (`TreeReducer`) over the filled-in diff stream (`FillIn`), increment made
before the mirror file is replaced, temporary files, directories replaced by files and vice versa, files whose
transfer fails, and at the end metadata and markers.  Restoring is what the program does: choice of the time, the
metadata of that time (`MetaChain`), the relevant increments, patching from the mirror backwards.  The abstract
counterpart is a history, the list of times and trees (`Spec/RepoHistory.lean`); `Proof/Repo*.lean` proves the
invariant that a reached repository represents its history.  `Reach` is closed under backups, interrupted backups
followed by any number of interrupted and one completed regress, and removals.

* **C01** `Props/C01`: `restore_exact`, `backup_then_restore`, `backups_restore`: every reached repository restores,
  for every time, the tree recorded by the chosen session (what was in the source, except for files whose transfer
  failed, which keep their former state).  Method: refinement invariant + induction over histories.  Contract
  for librsync: `patch_delta`.  Hypothesis `Honest`: a file with the same attributes and size is the same (the
  program looks no further; that is how rdiff-backup is specified).
* **C02** same file: `restore_newest`, `restore_oldest`, `increment_times_exact`.
* **C03** same file: `older_unchanged` (any later session, also one that is interrupted), `not_later_refused`.
* **C04** `Props/C04`, model `Regress.lean`: `crash_regress`, `interrupted_recovers`, `backup_again`: after every
  prefix of the steps of a session, regress restores the repository before it (`SameRepo`).  Assumptions are in `ValidRegress`.
* **C05** `regress_restartable`, `retried_reach`: any prefix of a regress followed by another regress.
* **C06** `markers`, `interrupted_two_markers`, `complete_one_marker`, `interrupted_refused`, `no_false_alarm`;
  `detected_partial`: except if increments/ is empty, where the code fails (`not_always_detected`, F3).
* **C09** `Props/C09`, model `Remove.lean`: `kept_restorable`, `remove_keeps`, `older_gone`; also for interrupted removals.
  F12: what is being removed may be left broken (`interrupted_removal_leaves_broken_backup`).
* **C10** same, model also `Action.lean`: `refused_iff`, `nothing_to_remove`, `removed`; F10, F11 as witnesses.
* **C52** `Props/C52`, models `RemoveFile.lean` (the repository) and `RemoveLines.lean` (the texts of metadata files),
  specification `Spec/RemoveFile.lean` (what an interruption may leave): `removed_from_all_backups`, `remove_command`, `nothing_left`,
  `interrupted_removal`, `metadata_text`, `attributes_text`, `statistics_text_partial`; F53, F54. Histories with removed files are part of
  `Reach`, so C01–C06, C09, C44 hold for them too.
* **C44** `Props/C44`, models `RestoreDir.lean`: restoring a directory of the repository into an *existing* directory (the
  diff stream against signatures of the target, `_DirPatchITRB`): `restore_into` (target equals the backup, at every
  time and every directory restored), `restore_into_honest`, `restore_into_partial`; F52 `kept_without_digest`.
  `Props/C44Any`, model `RestoreAt.lean` (the directory around the target is the world): any target (missing, file, directory) and
  any path of the backup (directory, file, absent): `restore_at`, `restore_at_partial`, `absent_deletes`, `nothing_refused`,
  `--force` (`unforced_refused`, `unforced_allowed`), interruption at any operation (`stopped_outside`, `stopped_again`); F69, F70.
  Proved by embedding into restoring the whole surrounding directory.
  Hard links within restore: C66; selections: C64.

### Metadata

* **C53** `Props/C53`, model `Attrs.lean` (meta/ea.py, meta/acl_posix.py: records, reading and writing of files, `join_iter`; base64;
  applying to a file), specification `Spec/Attrs.lean` (which names are plain, what is kept of an entry): `ea_restored_partial`, `ea_names`,
  `ea_kept_iff` (exactly which attributes are kept, F55), `ea_written`, `ea_file_to_file`, `acl_restored`, `acl_equal`, `acl_on_system`,
  `acl_same_system`, `acl_blanks` (white space and comments mean nothing); F56. The reading of the files is that of `FlatFile.lean` (C24, C25).  Not modelled: Windows ACLs, resource forks,
  user mappings other than the default one for ACLs (C29), errors of the system calls other than "not settable" and "not removable".
* **C54** `Props/C54`, model `Cache.lean` (RS 2167-2466 `_CacheCollatedPostProcess` operation by operation, the operations done on it by RS
  2469-2806, `CacheIndexable`, the blocks of `MiscIterToFile` with flush markers). Refinement: a session with a cache of `N` entries, under any timely schedule, writes the listing
  of `Repo.lean`, where the cache is a function (`bounded_eq`, invariant on the read and the expired pairs and on the list of parents); local and remote schedules
  are timely (`timely_local`, `timely_remote`: a flush marker at most `interval + 1` pairs after each signature ends the blocks of both directions). Simplified: an attached file
  is sent as one element with its signature (processing then happens when its last part has arrived); `dir_perms_list` and hard links are left out.
* **C55** `Props/C55`, model `Regress.forceRegress`, `Action.regressAction` (RS 805-822, 1727-1751; actions/__init__.py 657-692). A completed session, marked as
  failed, is shown to be in the state of an interrupted session (`Proof/ForceRegress.lean`: the representation invariant `Static` keeps, for every pair of
  consecutive backups, that the increments between them lead from one to the other); then C04, C05 apply. `Reach` has the forced regress as one of its
  operations, so that all other properties of repositories (C01-C10, C44, C52) also hold after forced regresses.
* **C56** `Props/C56`, model `Action.createRepo`, `fullBackup` (RS 349-444; actions/backup.py 105-155), proof `Proof/FirstBackup`. The destination of a first session is what is found in
  the directory (`destOf` without previous time), so the session theorem (`work_safe`) applies with the found files as previous tree and nothing to protect; at every crash point
  the mirror is again a directory (operations keep paths unique and parents directories), there is no marker and at most one metadata file, so that the next attempt starts in the
  same class of states. `Reach` has a constructor `fresh`, so all theorems about histories also hold for repositories begun in a non-empty directory.
* **C57** `Props/C57`, model `RFCache` (RS 2809-2905 `_CachedRF`, 3000-3123), spec `Spec/RFCache`, proof `Proof/RFCache`, `Proof/RFReach`. The list of `_RestoreFile`s as in the code, the `while 1` with
  a number of passes which is a parameter (so that endless loops can be expressed: `none` for every number). Invariant: the list is sorted, each entry is what is on disk, and complete for
  the rest of every directory in it. Reading increments includes the error handling (empty file instead of missing data; what the operating system does for special files is a parameter).
* **C58**, **C59** `Props/C58`, `Props/C59`, model `RepoVerify` (RS 1471-1590, actions/verify.py, actions/compare.py), spec `Spec/RepoVerify`, proof `Proof/RepoVerify`, `Proof/RepoCompare`: the loops of
  C38-C40 instantiated with the records of a repository (C04) and the cache of C57. Damage: any state whose directories are directories, with the same records.
* **C60**, **C61**, **C62** `Props/C60`-`C62`, model `RepoList` (RS 998-1144, 2137-2164), spec `Spec/RepoList`: listings of files, of changes, of increments and of sizes. C61 uses the
  invariant of reachable repositories, which says for each pair of consecutive backups which increment a path has and of which type (`Linked`, `Chain`), and exactly which
  increments a session writes (`Body.incs`).
* **C63** `Props/C63`, model `RepoDirs` (RS 446-522, 781-822, rpath.py 990-1037, restore.py 90-178), spec `Spec/RepoDirs` (paths as text): from the arguments of `restore` to the repository,
  the path and the time, then with `Repo.restore` to the contents. Lemmas on splitting and joining paths; induction on the search upwards; C19, C21, C22 for times and names; the invariant of C01 for the contents. Partial: F65-F68.
* **C64** `Props/C64`, model `RestoreSel` (restore.py 113-145, RS 846-884, DS 345-371: the selection of C28 applied to the records and that of C27 applied to the target, then C44), spec `Spec/RestoreSel`
  (what conditions exclude; options which name paths). Invariant on every operation: it is about a path which is not excluded, and a deletion is of a path which was no directory. For the exact result the diffs are those between the target and
  a goal tree (selected files from the backup, the others from the target), to which the theorem of C44 applies; where the goal is no tree, the removal of a directory is shown to fail. F71-F74.
* **C65** `Props/C65`, model `Linked` (a file system with inodes; RS 567-616, 2421-2455, 2506-2535, 2565-2700, 2742-2780, with the decisions and the digests of C31's `Hardlinks.Run`), spec `Spec/Linked`
  (`IsSource`, `ValidSess`, `versionOf`, `Reach`, `Made`). Proof: a digest which is handed to a mirror file comes from a link of the same file at the last backup and so is the digest of its contents (`run_handed`); an
  invariant over the paths patched so far (`Part`): done paths hold the version and are described by the metadata, later paths are untouched except for attributes of shared inodes; increments as in C01 for single files.
  Partial because the code is wrong after errors with linked files (witnesses F75, F76, F79). Not modelled: directories among the paths (F77), interruptions (C04), the contents of deltas (C36).
* **C66** `Props/C66`, model `LinkedRestore` (RS 908-993, DS 393-527, hardlinks.py 182-208). Proof: the records of every backup describe the links which were in the source (`reach_versions`), so the decisions are those
  of C31 (`restore_decision`), and an invariant over the restored paths. The listing of the target is arbitrary, as it may be read before or while files are replaced. Partial: paths which are kept (witness F80).
* **C67** `Props/C67`, model `FsQuoting` (FA 904-1069, 1101-1156, RS 212-232, 1986-2030, filenames.py 167-185) on top of `Filenames` (C17, C18). Proof: the configuration determines the quoting and no successful backup changes it
  (invariant over all backups, `used_cfg`); the suggested character classes are finitely many and examined byte by byte; injectivity under case folding is that of quoting as an encoding (`enc_fold`). What file systems can do is given, not detected.
* **C68** `Props/C68`, model `FStats` (fstats.py 75-488, buffer.py 28-88, sstats.py 178-195, RS 1146-1205), specification `Spec/FStats`. Proof: `_accumulate_fs` on a listing gives the post-order of the tree with totals (`Proof/FStats`: listings in lexicographic order with parents are pre-orders of forests), filtering by cut-offs prunes it, `_make_root_tree` rebuilds it; merging is a sum at every name; the walk `get_top_fs` is characterised by induction on the forest. Buffers: splitting at a separator commutes with block boundaries. Partial: `hash_ignored` (F87) and `cutoff_wrong` (F86) show where the program lacks the property.
  The choice of the sessions by time: `Props/C68Choice`, model `StatsChoice.lean` (RS 1148-1181), on top of the names of C22.
* **C69** `Props/C69`, model `Prepare` (run.py 79-138, location.py 84-190, RS 150-195, 297-444, 2059-2107, DS 313-344, `check` and `setup` of the actions), specification `Spec/Prepare`. Proof: `Grows` (nothing lost, new only directories of a list) is kept by each step; the two steps which delete are characterised exactly. Partial: `deleted_without_force` with its witnesses (F88, F89) and `interrupted_refused` (F90).
* **C70** `Props/C70`, model `ExitStatus` (run.py 38-157, all actions' steps and codes), specification `Spec/ExitStatus` (`Done`, `Ready`). Proof: `main_cases` (either `run` is reached or an error is told and nothing done), then by cases of the outcomes. Partial: file errors aren't told (F91); F92–F94.
* **C71** `Props/C71`, models `FlatFile.lean`, `MetaDamage.lean` (meta/__init__.py 53-151, stdattr.py 97-151 with the exception which isn't
  caught). The content of the file is the records of `A`, arbitrary bytes `X`, and the records of `B`. Proof: where a record is cut depends
  on the content only and not on the reads (`Proof/Damage.lean`: the first place where a record begins is the same in every prefix in which
  it is found); no record begins inside of an intact one; induction over the damaged bytes. What is cut out of the damaged part is
  unspecified except that its pieces, together with the two neighbours, make it up. Not modelled: reading errors of the file itself
  (`gzip`), which end the reading.
* **C72** `Props/C72`, model `Settings.lean` (FA 785-851, 973-983, 1158-1174, 1243-1252; rpath.py 86-100, 131-170, 471-488, 1227-1249, 1578-1582,
  1802-1805; meta_mgr.py 71-150, 185-206; RS 566-594, 956-980, 2421-2451): one kind of attributes and one path, over histories of sessions, each with
  its own connections, abilities, option and file. Proof: induction over the history where needed, else by cases over the settings; the two assignments
  to the setting of a connection which both sides share are modelled in their order. The settings after `None and ...` are conditions only. Not
  modelled: Windows' access control lists and resource forks (same code path), updates which fail, and what is left of the attributes of an existing
  directory which is restored to without the option.
* **C73** `Props/C73`, model `Ends.lean` (SetConnections.py 119-134, 314-515; specifics.py 48, 118-141; generics.py 151-182; actions/__init__.py 573-609): API
  versions are four numbers per end, `validate` and `connectAll` are the negotiation in the order of the locations. Settings: a world of ends, each with its
  values, its changed settings and the ends it can reach; events are connections and calls of `set` at any end. Proof: an invariant over the locations, and an
  invariant over histories of events (values = last value set, reach = all ends, the client's changed settings = all settings set). Not modelled: messages,
  requests which a server refuses (C30 f.), failures of connections later on.
* **C74** `Props/C74`, model `Schema.lean` (SetConnections.py 43-100, 273-311, with the parser of Python's `str.format`): both regular expressions as functions over
  bytes, `format` as a state machine whose other outcomes are named and not evaluated. Specification: a schema is a list of pieces, with how each is written and
  what it means. Proof: `format` of rendered pieces, and pieces of whatever is formatted, by induction; the lists of both expressions are compared by length.
* **C75** `Props/C75`, model `Inode.lean` (rpath.py 741-834, 949-971, 1137-1155, 1471-1695): a file system of names, inodes and what the kernel does where systems differ
  (any change of permissions by `chown`, any attributes of new files, which attributes can be set), the system calls as functions on inodes, `copy_attribs` as the list of
  its steps. Specification: `Like` (each attribute, under its condition), `After` (frame). Proof: case analysis over settings, `ea_written` of C53, and an invariant of
  directories (`Ok`) for the parts below a path. Not modelled: errors, MacOS' and Windows' attributes, times of the parent directories.
* **C76** `Props/C76`, model `Inode.lean`: all states between the steps; specification: POSIX' rule of access with access control lists (`may`).
* **C77** `Props/C77`, model `SelParse.lean` (selection.py 100-109, 150-239, 300-309, 322-498, 644-680): the options as a data type, lists as bytes, the conditions of `Selection.lean` and the
  patterns of `Glob.lean`. Specification: what a list looks like (`Raw`, `render`), components of paths, prefixes of indices. Proof: lists are split where they were joined; the conditions by
  induction over the options; the iteration from C27. Not modelled: reading the files, messages.
* **C78** `Props/C78`, model `Power.lean` (`_repo_shadow.py` 2744-2783, 3308-3316, 3370-3402, increment.py 129-155, 213-280, rpath.py 218-280, 1156-1209): system calls on one path, its increment and
  temporary files; for each name, content and attribute the set of the values which may be on the disk; a power failure takes any of them. Specification: `Holds`, `Clean`, `Distinct`. Proof:
  all moments of the backup and of the regress, for all sets of lost writes; an invariant (enough is left to restore) over any number of failures. Not modelled: directories, hard links, several
  files at once, errors of the system.
* **C79** `Props/C79`, model `PowerData.lean` (`_repo_shadow.py` 655-700, 1637-1723, 1866-1903, 2317-2325, backup.py 127-156, meta_mgr.py 116-148, 269-373): markers and main metadata files of all
  backups, with the file system of C78. Specification: `Complete`, `Interrupted`. Proof: all moments of a backup and of a regress and all sets of lost writes; induction over histories (`Reach`);
  reading by induction over the chain. Not modelled: other metadata files, several directories, kills without a power failure (but for a counterexample).
* **C80** `Props/C80`, model `LongRestore.lean` on top of `LongNames.lean` (longnames.py 87-250, 317-376; `_repo_shadow.py` 1905-1932, 2380-2393, 2505-2525, 2745-2780, 2831-3049, 3240-3326; increment.py 90-153): mirror, increments and records of all
  files, at their usual places or under substitute names; backups that fail after any file, or in it, and are regressed. Specification: what is restored of a backup is its list of files. Proof: invariant for each file (`Ok`: from every record, the increments at its place lead to its data, and need the mirror
  only if it is still the same file) and for the names (`Names.Good`, by C42); files don't touch each other's places; a failed backup keeps to the places of the last
  records but for new names (`Touched`), and regressing puts those back (`Agree`). Not modelled: directories as such, failures of single files, a failed first backup (C56).
* **C81** `Props/C81`, model `TempFiles.lean` (rpath.py 650-660, 851-858, 1062-1088, 1331-1339, 1642-1698; `_repo_shadow.py` 2505-2568, 2693-2729, 2745-2780; `_dir_shadow.py` 421-454): a file system, the search for free names, and the update of a
  tree (entries one after the other, directories with what is in them, temporary files for directories replaced by files, which stay while what is in the directory is processed). Specification: `Plan.Turns` (the plan is the difference of two
  trees), the result is the new tree. Proof: the search ends, by counting names; induction over the plan, with the rest of the tree unchanged (frame). Not modelled: attributes, hard links, increments, failing operations.
* **C82** `Props/C82`, model `Compress.lean` on top of `IncName.lean` (increment.py 110-284; `_repo_shadow.py` 2940-3147; rpath.py 1090-1119, 1635-1640): the mirror, and the directory of increments with names and bytes, which are written with the settings of each session
  and read as their names say. Specification: the data in the list of files of the backup. Assumed: gzip and librsync give back what they were given. Proof: for each file, the increments with times from a backup on lead to its data (`chain`); a new increment leads from the new mirror to the old
  one; names are read back (C22), the order of the directory doesn't matter (sorting). Not modelled: directories, attributes, failures.
* **C83** `Props/C83`, model `MetaWrite.lean` (rpath.py 1359-1418; meta/__init__.py 219-296; meta_mgr.py 116-208; `_repo_shadow.py` 1187-1199, 1341-1398, 1618-1631): the files of the data directory, the lazy writer, collected records. Specification: reading gives what was written. Proof: cases
  and induction over records. Not modelled: fsync (C78, C79), killed writers.
* **C84** `Props/C84`, model `Logging.lean` (singletons/log.py; repository.py 84-119; `_repo_shadow.py` 221-260): all processes with their switches, the log files and the terminals. Specification: the files and the terminals as filtered lists of the
  events. Proof: in a backup all processes agree about who writes, an invariant of all events; induction. Witnesses: the logs of `regress` and `remove` remain empty; `exception` hides what equals the verbosity. The verbosities: `verbosity_set`, `verbosity_refused`, `same_verbosity` (connected processes), `backup_log_set` (from the options on).
* **C85** `Props/C85`, model `WalkErrors.lean` (selection.py 240-320 with robust.py 102-123): the walk through a source in which files can't be looked at, have vanished, directories can't be listed. Specification `Spec/WalkErrors.lean`: what can be
  seen. Proof: the walk is the walk of C27 through the pruned tree; the errors are those of a walk with fixed decisions. An unlistable directory counts as an empty one (F127).
* **C86** `Props/C86`, model `Completion.lean` (actions/complete.py): the parsers as a tree of options and actions, the code's search for the first word which is an action. Specification `Spec/Completion.lean`: a relation which reads the words before the
  cursor, with the values of options skipped. Proof: the search follows this relation, by induction; then what is filtered and sorted. Four witnesses of exceptions and wrong proposals.
* **C87** `Props/C87`, model `Readable.lean` (convert.py 28-89, Time.py 148-172, sstats.py 246-304): conversion to double, search for the unit, precision, rounding, the words of durations. Specification `Spec/Readable.lean`: a reader
  of numbers with units, over the rationals. Proof: rounding is within one half, the double within one part in 2^53; monotony through the boundaries of units and precisions. Witness: negative durations (F131).
* **C88** `Props/C88`, model `Detect.lean` (fs_abilities.py 127-192, 210-235, 253-318, 350-426, 652-782): a file system as an identification of names, the names it refuses, and the names of devices; detection in an empty directory (with writing) or
  from a tree (without). Specification `Spec/Detect.lean`: `Behaves`, what a file system with certain abilities does, in terms of `Usable` and `SameFile` of C67. Proof: cases, induction over trees; composed with C67 (`first_backup_partial`). Witnesses: F132, F133, F134.
* **C89** `Props/C89`, model `SelOpts.lean` (argopts.py 28-141, actions/__init__.py 136-236, selection.py 150-239): the table of options with the placeholder replaced, the action for each as a function on the list kept so far and standard input, the dictionaries from names to conditions. Specification: the options of the manual as a type with their text, argument and meaning. That names are looked up right is checked for the 28 options (they are finitely many), everything else by induction on the command line. `argparse` itself (splitting of the command line, abbreviations) is given. Wrong in the code: F135, F136.
* **C90** `Props/C90`, model `Inside.lean` (backup.py 157-177, with `normalize` of `Security.lean`). Specification: `Within` of Spec/Security.lean (where paths lead from a current directory). Proof: what's in front of a normalized path and its names are determined by it. Not modelled: symbolic links. Wrong in the code: F137.
* **C91** `Props/C91`, model `Plugins.lean` (utils/plugins.py, actions_mgr.py, meta_mgr.py 376-419): dictionaries as lists of pairs. Specification: in the theorems, by names of modules. Proof: invariants of setting keys; the built-in modules come last.
* **C07** `Props/C07`, model `MetaChain.lean` (PatchDiffMan: snapshots, diffs, when to make which, reading at a time):
  `meta_read_exact`, `meta_session_succeeds`, `meta_history_exact`.  **C08** `chain_bounded`.
  Specification `Spec/MetaHistory.lean`; induction on the history with the invariant of the chain of files.
* **C23** `Props/C23`, model `MetaRecord.lean` (bytes of a record): `roundtrip`, `attributes_restored` for all
  values the format can hold (`Spec/Metadata.lean`: `Storable`, `kept`); F6 witnesses for the others.
* **C24, C25** same file, model `FlatFile.lean`: `iterate_written` (all block sizes), `restricted` (a sub-path).
* **C47, C48** same file: `unchanged_equal`; `equal_unchanged_partial`, F15.
* **C15** `Props/C15` (`Quoting.lean`), **C16** `Props/C16` (`AclQuote.lean`, the C functions).

### Orders and streams

* **C11, C12** `Props/C11`, model `Collate.lean`, specification `Spec/Join.lean`.
* **C13** `Props/C13`, model `TreeReducer.lean` (stack machine with an event trace), specification `Spec/Nesting.lean`.
* **C14** `Props/C14`, model `FillIn.lean`.
* **C26** `Props/C26`, **C27, C28** `Props/C27`, model `Selection.lean` (all kinds of conditions, the directory iterator with its
  pre-check by name, `FilterIter`); F16–F19, F4.
* **C29** `Props/C29` (file lists, F20), **C30** `Props/C30` (`Glob.lean`, `Spec/Glob.lean`; F21–F24).

### Names and times

* **C17, C18** `Props/C17` (`Filenames.lean`, `Spec/Filenames.lean`; F2).
* **C19–C21** `Props/C19` (`TimeStr.lean`: calendar arithmetic included, F1, F13).  **C22** `Props/C22` (`IncName.lean`; F1, F14).
* **C42** `Props/C42` (`LongNames.lean`: counter file, crash points; F41, F42).
* **C45** `Props/C45` (`Location.lean`, `Spec/Location.lean`: `re.split` as used; F44–F46).

### Files, links, owners, permissions

* **C31** `Props/C31` (`Hardlinks.lean`: dictionaries, and their use by a session; F25, F26).
* **C33** `Props/C33` (`Owners.lean`; F29–F31).
* **C36** `Props/C36`, **C37, C50, C51** `Props/C37` (`FileObj.lean`: `LikeFile`, hash wrapper, copy, compare, patch; librsync
  jobs are parameters with the contract `Streams`; SHA1 is a parameter).
* **C43** `Props/C43` (`PermChanger.lean`).
* **C38, C39, C40** `Props/C39` (`Compare.lean`; F35–F37).
* **C41** `Props/C41`, `Props/C41Session` (`SStats.lean`: counters, file format, averages; `RepoStats.lean` connects them with
  the sessions of `Repo.lean`; F38–F40).

### Processes

* **C32** `Props/C32` (`Lock.lean`: any number of processes, all schedules; F5, F27).
* **C34** `Props/C34` (`Pipe.lean`: bytes on the connection, all chunkings; F32), **C35** `Props/C35` (`IterFile.lean`; F33, F34).
* **C49** `Props/C49` (`Calls.lean`: two sides, nested calls both ways, request numbers; all interleavings).
* **C46** `Props/C46` (`Security.lean`, `Spec/Security.lean`: lists of allowed functions per level, paths of requests; F47–F51).

A property not expressible in this style: timing and resource use (speed, memory) — none is listed.

## 3. Trusted base

* Lean 4.33.0's kernel (vcheck replays the compiled proofs), and Mathlib's definitions used in statements: lists, `<+:`,
  orders (`List.lex`), `Nat`, `Int`, `UInt8`, `List.Pairwise`, `List.Perm`, `List.Forall₂`.
* Axioms: only `propext`, `Classical.choice`, `Quot.sound` (per theorem: `notes/axioms.md`); no own axioms, no compiled
  evaluation (`decide +kernel` is evaluated by the kernel).
* The reading of Python (and of the C of `cmodule.c`) into Lean.
* Contracts, which appear as hypotheses or structure fields in the theorems:
  * librsync: patching a basis with a delta made from its signature and a new file gives the new file (`Ops.patch_delta` in
    C01 ff., C50); a job's output doesn't depend on how the input is cut, and errors aren't lost (`Streams`, `Late`, `Uses` in C36, C50).
  * `pickle.loads` inverts `dumps` (C34, C35); SHA1 is an arbitrary function (no collision freedom is assumed except where
    a hypothesis says so); gzip is transparent.
  * the file system does single steps atomically (create, rename, remove, write of one file in the sense of C04: a file being
    written may also be left with only part of its content); directory listings are complete; `fsync` ordering is as issued.
* Regular expressions used by the program (`re.split`, `findall`) are modelled by functions written for these expressions.

## 4. What is modelled and what is not

Modelled: see `notes/model-index.md`.  By Python file:
`locations/_repo_shadow.py` (backup, restore, regress, removal, locking, verify, compare, list files,
increments and sizes, permission changer), `locations/_dir_shadow.py`, `locations/increment.py`, `locations/map/*` , `meta_mgr.py`, `meta/__init__.py`,
`meta/stdattr.py`, `rorpiter.py`, `selection.py`, `Time.py`, `iterfile.py`, `connection.py`, `librsync.py`, `hash.py`, `Rdiff.py`,
`rpath.py` (comparison, copying, quoting, normalisation), `SetConnections.py` (locations), `Security.py`, `singletons/sstats.py`,
`utils/{quoting,usrgrp}.py`, `cmodule.c` (quoting), parts of `actions/{backup,regress,remove,restore}.py`.

Not modelled: argument parsing (but for the selection options: C89), the abilities of file systems other than those about names (taken as given; names: C88), resource forks and
Windows ACLs, `fstats`, the `_librsyncmodule.c` glue, `user_group` system databases, `actions/{calculate,info,test}.py`, exceptions other than those
mentioned in the comments (the models return `none` where the program raises), memory exhaustion, changes of the source while it is being
read (except those the model's session takes as parameter: files that fail, that disappear or change type before they are sent).

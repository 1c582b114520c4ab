# Definitions of the model

Generated by tools/mkindex.py from the comments in lean/Verif/Model.


## AclQuote.lean

Model of the C functions `quote` and `unquote` in `src/cmodule.c` lines 89-157 (exported as `C.acl_quote` / `C.acl_unquote`, lines 160-177). Simplifications: the C strings are NUL-terminated; the Python wrapper (`"y"` format) refuses byte strings containing NUL, so NUL never occurs in an input. `isprint` and `isspace` are those of the C/POSIX and UTF-8 locales for single bytes. Memory management (`high_water_alloc`) is not modelled, nor is the fact that `unquote` overwrites the buffer of its argument.

* `isPrint` C `isprint` on one byte (C and UTF-8 locales): 0x20 .. 0x7e.
* `isSpace` C `isspace`: tab, newline, vt, ff, cr, blank.
* `needsQuote` cmodule.c:102,112 the condition under which a byte is quoted.
* `quote` cmodule.c:89-124 `quote`: `\ooo` with three octal digits. (The early return when `nonpr == 0` gives the same result as the loop.)
* `isOctal` cmodule.c:138-139 `isoctal`.
* `unquote` cmodule.c:126-157 `unquote`: `\ooo` becomes the byte (arithmetic modulo 256, the target is an `unsigned char`), everything else is copied. Here the four bytes are matched at once; `isoctal` of the terminating NUL is false.

## Action.lean

Model of the actions "backup" and "regress" as far as the state of the repository is concerned: `src/rdiffbackup/actions/backup.py` 105-155, `src/rdiffbackup/actions/__init__.py` 657-692, `src/rdiffbackup/actions/regress.py`.

* `operateRegress` actions/__init__.py 657-692 `_operate_regress` (without `force`); `none`: an error. `Needs.unknown` is Python's `None`, so that nothing is done.
* `backupAction` actions/backup.py 105-128 `run`: regress if needed, then a backup session

## Calls.lean

Model of remote calls over a PipeConnection (`src/rdiff_backup/connection.py` 413-640): `reval` (458-487), `_get_response` (519-545), `_answer_request` (547-572), `_get_new_req_num` (597-601), `Server` (452-456), on the two sides of a connection, which run concurrently and send each other messages in order (C34). A function which is executed on one side is a program which may make calls of functions of the other side. A value `V` stands for a result or an exception (which `reval` raises: what is done with it is up to the caller, hence to the program). Not modelled: exceptions which close the connection (584-585), `quit`, several connections, files and iterators as values (C35), restrictions of what may be called (C46).

* `Prog` what a function does: return a value, or call a function of the other side and go on with the result
* `Msg` a ConnectionRequest (184-195: function and number of arguments), or an argument or result
* `Frame` the functions on the call stack: `reval` waiting for the response `r`; `_answer_request` for `r`, executing a function
* `Mode` what one side of a connection is doing: connection.py 461-487 `reval`, 524-547 `_get_response`, 549-568 `_answer_request`
* `Side` one `PipeConnection` (connection.py 425-438): what it does, the calls which wait for it, and `unused_request_numbers` (438)
* `take` 601, 549: the number is taken out of `unused_request_numbers`
* `add` 471, 572
* `desired` the number which `_get_response` waits for; `none`: -1
* `LStep` a step of one side: its state, what is in its pipe, the state and the pipe afterwards, and what is sent
* `Sys` both sides (`true`: the client), and the messages on their way to each of them
* `Sys.upd` one side has moved: it consumed from its own pipe (connection.py 326-331 `_read`) and wrote to the other's (310-324 `_write`)
* `Step` a step of either side
* `allUnused` 438: `set(range(256))`
* `Sys.init` the client starts with its program, the server listens (452-456)
* `Reach` the states which a session can reach, with any interleaving of both processes (not a function of the code: the executions of connection.py 454-568)

## Collate.lean

Model of `Collate2Iters` and `CollateIterators`, `src/rdiff_backup/rorpiter.py` lines 303-391. An iterator is the list of the elements it will still yield; a generator's result is the list of what it yields. Elements are of any type with an `.index` in a linear order (Python tuples of bytes, compared lexicographically, are one). Elements are always "true" in Python's sense (RORPaths have neither `__bool__` nor `__len__`).

* `collate2Loop` rorpiter.py:352-391 `Collate2Iters`: the `while 1` loop. `r1`, `r2` are the variables `relem1`, `relem2` (`none` = has to be fetched), `it1`, `it2` the rest of the iterators.
* `collate2` rorpiter.py:352-391 `Collate2Iters(riter1, riter2)`
* `leastIndex` rorpiter.py:329-331 `getleastindex`: minimum over the held elements; here the held element of a stream is the head of its list (all streams are replenished by `setrorps`, 319-327, before every round).
* `pick` rorpiter.py:341-346, one stream: yield the held element if it has the least index.
* `advance` rorpiter.py:343-344 `rorps[i] = None`: the element is consumed.
* `advanceAll` one round of 341-344 on all streams
* `yieldTuples` rorpiter.py:333-347 `yield_tuples`: the loop of `CollateIterators` for any number of iterators; stops when all are exhausted (336).
* `collateIterators` rorpiter.py:303-349 `CollateIterators`: two iterators are handled by the special case (312). The index of the tuple (`IndexedTuple.index`) is dropped here so that both cases have one type.

## Compare.lean

Model of comparisons: `src/rdiffbackup/locations/_dir_shadow.py` 171-277 (`compare_meta`, `compare_hash`, `compare_full`, `_get_basic_report`), `src/rdiffbackup/locations/_repo_shadow.py` 998-1021 (`list_files_changed_since`), 1486-1518 (`_attach_files`), 1520-1589 (`verify`). Files of the directory are of type `S`, files of the repository (at the chosen time) of type `R`, with whatever attributes; the iterators are lists (in the order of their indices: C16, C27 and C28 for the directory, C04 and C24 for the repository). `__eq__` is a parameter, see C47 and C48 for it.

* `Ops` what is asked of files
* `Report` `_CompareReport.reason`
* `basicReport` _dir_shadow.py 241-277 `_get_basic_report`. `comp`: `comp_data_func`, which has a state and may raise an exception (`none`). Called with neither of both files, the code raises AttributeError (257).
* `reports` the loops 175-179, 204-209: the reports in their order; `none` if an exception is raised
* `compareMeta` 173-179 `compare_meta`
* `hashesChanged` 186-201 `hashes_changed`. `link`: what hardlinks.py looks at (with the same index), `sha`: `hash.compute_sha1`
* `compareHash` 183-209 `compare_hash`
* `verifyLoop` _repo_shadow.py 1538-1571 `verify`: the numbers of bad files and of files without digest. `restored`: the digest of what `rf_cache.get_fp` returns.
* `verify` 1536, 1554, 1571, 1589: the return code, as the pair of flags (RET_CODE_FILE_ERR, RET_CODE_FILE_WARN)
* `Sent` what goes through the connection: the file of the repository, or that there is none (`RORPath(index)`), and its contents if attached
* `attachFiles` _repo_shadow.py 1497-1518 `_attach_files`; `none`: exception. `index = src_rorp and src_rorp.index or mir_rorp.index` fails for the base directory (whose index is `()`, false) if there is no `mir_rorp`.
* `dataChanged` 220-226 `data_changed`, with `rpath.cmp` (C50): `dataS s = none` if the file can't be read; if no data are attached, `fp2` is None and AttributeError is raised.
* `compareFullLoop` 229-234 `compare_full`; `fs`: the file at `base_dir.new_index(index)`, which may not exist
* `compareFull` _dir_shadow.py 211-230 `compare_full` on the result of `_repo_shadow.py` `attach_files`
* `changedSince` _repo_shadow.py 1009-1021 `list_files_changed_since`; both lists are of the repository

## FileObj.lean

Model of the file-like objects through which contents of files pass: `src/rdiff_backup/librsync.py` (LikeFile 46-119, of which SigFile, DeltaFile and PatchedFile differ in the librsync job only), `src/_librsyncmodule.c` (the three functions `cycle`, which are the same but for the job: 103-133, 242-272, 389-...), `src/rdiff_backup/hash.py` (FileWrapper 25-47, Report 50-69, compute_sha1_fp 82-87), `src/rdiff_backup/rpath.py` (copyfileobj 1441-1468, _cmp_file_obj 1880-1895), `src/rdiff_backup/Rdiff.py` (_find_blocksize 106-119). librsync itself is a parameter: the function `rs_job_iter` of a job. SHA1 is a parameter: the function from bytes to the digest; that `update` can be called with pieces is taken for granted (`hashlib`).

* `FileObj` a file-like object with states `F`, exceptions `X` and close values `C`; `read none`: `read()` or `read(-1)`
* `JobResult` `rs_result`, as far as it is distinguished
* `JobIter` `rs_job_iter(job, buf)`: the state, the input, `eof_in`, `avail_out` give the result, how many bytes were used, the output and the new state
* `blocksize` RSM_JOB_BLOCKSIZE, `blocksize`
* `cycle` `cycle(inbuf)`: `none`: librsyncError
* `LErr` exceptions: those of the input, librsyncError; `fuel`: more passes through the loop than allowed for
* `LikeFile` LikeFile 55-62; `closeval`: `infile_closeval`, if `infile_closed`
* `LikeFile.new` librsync.py 54-61 `__init__`: empty buffers, nothing read
* `addToInbuf` 106-115 `_add_to_inbuf`
* `addToOutbuf` 95-104 `_add_to_outbuf_once`
* `fill` 66-72: the loops of `read`
* `LikeFile.read` 64-77 `read`
* `LikeFile.close` 79-85 `close`
* `LikeFile.obj` a LikeFile as a file object
* `CloseVal` what `close` of a file returns: nothing or a Report with a digest; `bad`: an AssertionError of Report (59-68)
* `Wrapped` FileWrapper: `seen`: all the data given to `sha1.update`
* `Wrapped.new` hash.py 36-39 `__init__`
* `Wrapped.read` 41-45 `read`; `none`: AssertionError
* `Wrapped.close` 47-49 `close`, Report 55-69
* `Wrapped.obj` hash.py 25-49: the wrapper is again a file object
* `BLOCKSIZE` consts.py 37
* `readLoop` 85-86: the loop of compute_sha1_fp
* `computeSha1Fp` 82-87 `compute_sha1_fp`: the digest; `none`: an exception (or not enough fuel)
* `Out` an output file: contents and position
* `Out.write` write(2): a hole before the position is filled with zeros
* `Out.seek` seek(n, SEEK_CUR)
* `Out.seekBack` `seek(-n, 1)` on the output file (rpath.py 1450-1464)
* `copyLoop` 1450-1464; `none`: not enough fuel; the result: whether `sparse`
* `copyfileobj` 1441-1468 `copyfileobj`
* `cmpFileObj` 1883-1891 `_cmp_file_obj`
* `bitLength` `int.bit_length`
* `findBlocksize` Rdiff.py 101-114 `_find_blocksize`

## Filenames.lean

Model of `quote`/`unquote` in `src/rdiffbackup/locations/map/filenames.py` lines 110-210. `generics.chars_to_quote_regexp` is compiled from `[chars_to_quote]|;` (lines 167-185); the bracket expression is a set of bytes and is modelled as the predicate `ctq`. (An empty `chars_to_quote` gives no regexp at all: then `QuotedRPath` is not used, see `_repo_shadow.py:215-235`.) The file-system encoding used by `os.fsencode` is UTF-8.

* `semi` `consts.QUOTING_CHAR`, `b";"`.
* `esc` filenames.py:188-192 `_quote_single`: `b"%b%03d" % (";", ord(c))`.
* `quoteChars` filenames.py:119 `chars_to_quote_regexp.sub(_quote_single, path)`.
* `escTrailing` filenames.py:126-133: replace a final blank or period by its escape.
* `lower` ASCII lower-casing, the effect of `re.I` on a bytes pattern.
* `dosPrefix` Length of a match of `aux|prn|con|nul|com[0-9]|lpt[1-9]` (re.I) at the start, if any: the bytes following it. filenames.py:140
* `dosMatch` filenames.py:139-141 the whole pattern `(...)(\.|$)`; `$` matches at the end and before a final newline.
* `escDos` filenames.py:139-143: escape the first byte of a DOS device name.
* `quote` filenames.py:110-143 `quote`.
* `isDigit` `[0-9]`
* `fsencodeChr` filenames.py:206 `os.fsencode(chr(n))` for n ≤ 999 (UTF-8).
* `unquote` filenames.py:146-150 `unquote` with 195-210 `_unquote_single`: every `;ddd` (leftmost, non-overlapping) is replaced.

## FillIn.lean

Model of `FillInIter`, `src/rdiff_backup/rorpiter.py` lines 394-434. An element is represented by its index; the flag says whether it is an element of the input (`true`) or a filler `rootrp.new_index(...)` (`false`). That fillers which are not directories are turned into empty directories (420-430, an error path) is not modelled.

* `fillFirst` rorpiter.py:404-411: the first element, preceded by all its proper prefixes.
* `fillOne` rorpiter.py:415-433: one further element. `List.dropLast` is `[:-1]`.
* `fillRest` rorpiter.py:415-434: the `for` loop, `old_index` is the previous element.
* `fillIn` rorpiter.py:394-434 `FillInIter`

## FlatFile.lean

Model of `src/rdiffbackup/meta/__init__.py` 35-151 `FlatExtractor` (reading metadata files). The file is its content which is still to be read, and the sizes of the coming reads: the `k`-th `read(blocksize)` returns `sizes k + 1` bytes, or what is left (the code has blocks of 32768 bytes, except where a read returns less). `pre` is the start of the first line of a record, `File ` or `# file: ` (record_boundary_regexp, meta/__init__.py 42, stdattr.py 67). The parameters `fuel` bound loops whose every round uses up a byte.

* `lit` bytes of an ASCII literal
* `startsLine` `r` starts with a complete first line of a record: `pre(.*?)\n`
* `scan` leftmost match of `\n(pre(.*?))\n`; position (counted from `k`) of the group
* `searchFrom1` meta/__init__.py 140 `record_boundary_regexp.search(self.buf, 1)`, `m.start(1)` (`^` does not match at 1)
* `search` meta/__init__.py 115 `record_boundary_regexp.search(self.buf)`, `m.start(1)`
* `St` the extractor (47-51) and the file
* `open'` meta/__init__.py 47-51 `__init__`: nothing read yet
* `getNextPos` 137-151 `_get_next_pos`
* `iterateRecords` 69-79 `_iterate_records`
* `iterate` 53-67 `iterate`; `toObj`: `_record_to_object`, `none` is a ParsingError or ValueError. (After an error in the last record the loop ends by `break` instead of going on to find nothing.)
* `skipInner` 114-123: the inner loop of `_skip_to_index`
* `readline` `fileobj.readline()`
* `skipToIndex` 105-130 `_skip_to_index`
* `startingLoop` 86-95: the loop of `_iterate_starting_with`
* `iterateStartingWith` 81-96 `_iterate_starting_with`, 267-272 `FlatFile.get_objects` with a restriction
* `getObjects` 267-272 `FlatFile.get_objects`
* `Writer` a file open for writing: what has been written, and `_record_buffer`
* `writeRecord` 288-297 `_write_record`; `max`: `_max_buffer_size` (170: 100)
* `closeWriter` 274-279 `close`
* `writeObjects` 263-265 `write_object` for all objects, then `close`; `none` if an object can't be turned into a record

## Glob.lean

Model of the parsing and matching of globs, `src/rdiff_backup/selection.py` 644-836, byte by byte. `_glob_to_re` works on the pattern decoded to a string and encodes the resulting regular expression; all characters with a meaning are ASCII and every other byte is copied, so that the model works on bytes throughout. The regular expression is kept as a list of its parts (`Tok`), and `re.match` is modelled by a backtracking matcher (`rmatch`).

* `Byte` a character of a file name (selection.py 644-836 works on bytes)
* `Bytes` Python's `bytes`
* `Tok` parts of the regular expression: `re.escape(c)`, `.*`, `[^/]*`, `[^/]`, `[stuff]` or `[^stuff]`
* `classEnd` 818-826: `str_pat[i:j]` and what follows `]`, from the text after `[`
* `mkClass` 830-832: `!` or `^` at the beginning negates
* `parse` 789-836 `_glob_to_re`
* `lower` `bytes.lower` for one byte
* `sameChar` literals under `re.I` (`fold`)
* `ranges` the characters of `[...]` in Python's `re`: ranges `x-y`, and single characters; `none`: bad character range (`re.error`). (Backslashes have been doubled at 828, hence they stand for themselves.)
* `inClass` `c` is one of the characters of the class, under `re.I` up to case
* `starLoop` the loop of `.*` or `[^/]*`
* `rmatch` `re.match` of the parts at the beginning of the string, followed by `k`
* `dollar` `$`: at the end of the string or before a newline at the end
* `globRe` 733 `glob_comp_re`
* `truncate` 735-736
* `split` `bytes.split(b"/")`
* `join` `b"/".join`
* `isDrive` `re.fullmatch(b"[a-zA-Z*]:", p)`
* `prefixes` 763-787 `_glob_get_prefix_res` (not on Windows): the prefixes; `none`: GlobbingError
* `scanRe` 738-740 `scan_comp_re`
* `compiles` the classes of the regular expression are accepted by `re.compile`
* `ignorecase` "ignorecase:"
* `flags` 721-731: flags and the glob itself
* `normalSf` 706-761 `_glob_get_normal_sf` for the base directory `base`: the functions `glob_comp_re.match` and `scan_comp_re.match` on paths; `none` if an exception is raised
* `joinName` `RORPath.path_join` (rpath.py 104-122) of a path and a name: `os.path.join`
* `path` the path of the file with this index

## Hardlinks.lean

Model of `src/rdiffbackup/locations/map/hardlinks.py`, and of the order in which its functions are called by a backup (`_repo_shadow.py` 569-610, 2205-2223, 2319-2339, 2349-2372, 2421-2433) and by a restore (956-991). `I`: indices, `K`: pairs (inode, devloc), `D`: digests.

* `Rorp` what is looked at of a RORPath; `nlink`: `getnumlinks()`; `key = none`: `_get_inode_key` (223-227) raises KeyError
* `DestKey` `dest_key`: None, "NA" or a pair (39-41)
* `Entry` a value of `_inode_index`
* `Tab` `_inode_index` and `_inode_old_index`
* `empty` hardlinks.py 30-45: both dictionaries are empty
* `set` assignment to (or deletion from) a Python dictionary: `d[k] = v`, `del d[k]`
* `add` 48-69 `add_rorp`: the dictionaries afterwards and `dest_rorp` (which may have got a digest); `none` if KeyError is raised
* `addOld` 72-81 `add_old_rorp`
* `del` 84-100 `del_rorp`
* `isLinked` 140-149 `is_linked`
* `linkIndex` 152-156 `get_link_index`
* `getSha1` 159-163 `get_sha1`
* `rorpEq` 102-137 `rorp_eq`: the result and the dictionaries afterwards; `none` if KeyError is raised
* `getHash` 166-179 `get_hash`
* `Pair` an element of the collated stream: source (or backup, at a restore) and destination file, and whether `RORPath.__eq__` holds
* `Decision` what is done with a file: nothing; made a link to the file with the index; replaced by a new one (or deleted)
* `onChanged` `_repo_shadow.py` 596-616 `_get_one_sig` (backup), 979-993 `_get_diff` (restore): the decision about a file which is not left as it is
* `decideOn` `_repo_shadow.py` 582-595 (backup), 963-976 (restore): the decision and the dictionaries afterwards; that no signature may be available (593: an error reading the repository) is not modelled
* `Run` A stage of a backup: the first `a` pairs have been through `_pre_process` (2319-2339), the first `q` of them have been decided about by `_sigs_iterator`, and the first `d` of them through `_post_process` (2421-2433): elements are post-processed when they leave the cache (`__next__` 2211-2223), at any time after they have entered it. `ps`: the pairs, of which those already seen may have got a digest for their destination. A restore (956-976) goes through stages with `a = q = d` after each file, and does not call `add_old_rorp` (`pass`). `out`: the decisions so far.

## IncName.lean

Model of the names of increment files: `src/rdiffbackup/locations/increment.py` 157-180 `get_increment`, 186-210 `_parse_increment_name`, 33-54 `StoredRPath.get_incfiles_list`, 56-80 `isincfile`. File names are lists of characters (bytes in the code).

* `IncType` increment.py 198: the types
* `IncType.str` increment.py 198 and 205: the words in the file names
* `parseType` increment.py 198 `ext not in {...}`
* `joinDot` `b".".join`
* `splitDot` `basename.split(b".")`
* `incName` increment.py 165-166 `addtostr`, with the type strings of 213-215 (missing), 227-233 (snapshot, snapshot.gz), 256-262 (diff, diff.gz), 285-287 (dir) and of metadata and statistics files (data, data.gz); `off`: UTC offset of the local time zone at `t`
* `IncInfo` increment.py 188-209: what is remembered of a name: compressed, time, type, base
* `parseIncName` increment.py 186-210 `_parse_increment_name` (without the time string itself)
* `incfilesList` increment.py 33-54 `get_incfiles_list` (unsorted): `dir`: the names in the directory

## IterFile.lean

Model of `src/rdiff_backup/iterfile.py`: how an iterator of objects and RORPaths with attached files is made into blocks of bytes (`MiscIterToFile` 317-433, on one side of a connection) and back into an iterator (`FileToMiscIter` 436-508, `IterVirtualFile` 108-195). `O`: objects, `R`: index and data of RORPaths, `E`: exceptions, `H`: what `close` of a file returns (a report with a checksum). `pickle` is a parameter. Not modelled: `FileWrappingIter` and `IterWrappingFile` (79-106, 197-298), which are only used by the tests; `MiscIterToFile.read` with a length, which is not used; files which are elements of the iterator by themselves.

* `Pickles` the `pickle` functions for the four kinds of pickled records (iterfile.py 38-72, 407-434, 486-508); contract: loads inverts dumps
* `Rec` what is written: a letter, the length in seven bytes and the data
* `Rec.letter` iterfile.py 38-72, 197-209, 486-508: the first byte of a record
* `Rec.data` iterfile.py 233-255, 407-434: the bytes after the length
* `enc` `none`: OverflowError
* `dec` 500-508, and what is done with the type
* `Src` A file as seen by its reader: the blocks `read(BLOCKSIZE)` returns one after the other until it returns nothing (or fails), and what happens then: an exception, or `close` returns something.
* `Elem` the elements of the iterator; `flushRepeat o`: `MiscIterFlushRepeat`, the class which is sent as an object
* `Writer` `MiscIterToFile`: 334-345
* `encAll` records one after the other in the buffer (iterfile.py 376-405)
* `Writer.emit` iterfile.py 376-405: `array_buf.frombytes` for some records
* `addFromFile` 257-280 `_add_from_file`
* `addToBuffer` 376-405 `_add_to_buffer`: the result, and the state; 407-428 `_add_misc_object`, `_add_rorp`; 430-433 `_add_final`
* `Src.work` not in the code: how many blocks a file still gives (termination measure)
* `Elem.work` not in the code: how many records an element still gives (termination measure)
* `Writer.work` how often something can still be added
* `fill` 355-360: the loop of `read`
* `readBlock` 347-365 `read()` without a length
* `VFile` `IterVirtualFile`: `str`: the buffer has become the (text) string "" (close, 157); `closeVal`: `close_value`, if it has been set
* `Reader` `FileToMiscIter` with the writer it gets its blocks from; `inFile`: `currently_in_file`; `vf`: the file returned last
* `Err` exceptions: the one which was transferred, and Python's for various errors; `fuel`: more passes through a loop than allowed for
* `Res` a result or exception, and the state afterwards
* `takeRec` 497-508 `_get`, of data which are there:
* `getRec` 486-508 `_get`
* `setCloseVal` 182-195 `_set_close_val`
* `addVf` 161-180 `_add_to_buffer` of a file
* `fillVf` 135-144: the loops of `read`; `length = none`: -1
* `readVf` 132-151 `read`; when the file has been read already, `real_len` is -1 for `length` -1 (146), so that `buffer[:-1]` is returned
* `closeLoop` 155-157: the loop of `close`
* `closeVf` 153-159 `close`
* `Item` what the iterator returns; `error`: `ErrorFile` (511-526)
* `waitRec` 450-452: until something is there
* `getFile` 471-484 `_get_file`, 116-130 `IterVirtualFile.__init__`
* `nextItem` 450-460 `__next__`, after the previous file has been closed
* `next` 446-460 `__next__`

## Location.lean

Locations given on the command line: `src/rdiff_backup/SetConnections.py` 177-270 `parse_location`. 58 is the colon, 92 the backslash, 47 the slash, 10 the newline.

* `run` The number of backslashes at the beginning.
* `afterSep` `::` at the beginning; what comes after
* `matchHere` The regular expression `(\\{2})*::` (SetConnections.py 192) at the beginning of `s`: the number of backslashes, and the rest. The stars take pairs, and after them there must be a colon, hence all backslashes are taken and their number is even.
* `search` The leftmost match of `(?<!\\)(\\{2})*::`; `prev`: is there a backslash before? The result: what is before, the number of backslashes, what is after.
* `splitRe` SetConnections.py 191-193: `re.split`, without the `None`. The group matches several times if there are several pairs of backslashes, and what `re.split` returns is the last of them only.
* `isPairs` SetConnections.py 201: `^(\\{2})+$`; the dollar sign also matches before a newline at the end.
* `stitchOne` SetConnections.py 200-207: one step of the loop over the reversed parts
* `stitch` SetConnections.py 198-208; the list is built from its end, and so need not be reversed
* `splitDbs` `split(b"\\\\")` with a double backslash
* `replaceColon` `replace(b"\\:", b":")`
* `joinSbs` `b"\\".join`
* `unquote` SetConnections.py 250-254, 262
* `Error` SetConnections.py 257-270, 320-352: the error messages
* `isUnc` SetConnections.py 257-261
* `fixPath` SetConnections.py 256-270
* `parse` SetConnections.py 177-270 `parse_location`

## Lock.lean

Model of the locking of a repository (`src/rdiffbackup/locations/_repo_shadow.py` 84-91, 151-190, 255-260, 350-444, 2060-2134 and `src/rdiffbackup/utils/locking.py` 57-66), by any number of processes running at the same time. Each system call is a step of its own; steps of different processes are interleaved in any way, and a process may die at any time. Not modelled: the content of the lock file (which is only for information), the directory `increments` (401), the base directory (location.py 162-191), the check of the time (157-159), errors of the file system, and Windows (locking.py 28-55).

* `Args` `writer`: `_must_be_writable` (True for backup, regress and remove); `force`: `--force`
* `Pc` where a process is. `open_ a e`: after `lockfile.lstat()` (2086) with the result `e`; `opened a i`: the lock file with inode `i` has been opened (2095); `active a l`: `setup` has been successful, and the process works in the repository, holding a lock on the inode `l` or none
* `State` `data`: the directory `rdiff-backup-data` exists; `marker`: there is a `current_mirror` file in it; `lock`: the inode of `lock.yml` in it; `fresh`: the next inode number which is free (numbers of files which may be open are not used again); `held`: the operating system's table of locks of `flock`: inode, and whether exclusive
* `Grants` `fcntl.flock(fd, (LOCK_EX | LOCK_SH) | LOCK_NB)` succeeds (flock(2)): no other process has a lock on the file which is not compatible
* `State.goto` process `p` goes on to `c`
* `State.hold` the table of locks when process `p` gets or (`none`) gives back one
* `Step` A step of process `p`. `rm = true`: a failed initial backup may be removed.
* `Steps` what can happen from `s` on

## LongNames.lean

Substitutes for file names that are too long: `src/rdiffbackup/locations/map/longnames.py`.

* `St` The directory `long_filename_data` and the variable `_free_name_counter` (longnames.py 45-58). `given`: the names returned so far, only there to talk about them.
* `base` `filename.split(b".")[0]`
* `scanNextFree` longnames.py 271-285 `scan_next_free`. Names are made of digits or are no numbers (`int` accepts more than that, but no such names are made).
* `falsy` Python's `not x` for None or a number
* `readNextFree` longnames.py 287-294 `read_next_free`; the outer `none` is a ValueError
* `nextNumber` longnames.py 306-309: the number to use; `none` is an exception
* `alloc` longnames.py 306-315 `_get_next_free_filename`: the name; `none` is an exception (also of the assertion).
* `Crash` How far `write_next_free` (longnames.py 296-304) comes before the program is killed. The few digits are taken to be written at once.
* `crashAlloc` The program is killed during `_get_next_free_filename`.
* `Op` What may happen to the directory.
* `step` one of the operations: `_get_next_free_filename` (longnames.py 266-315), a crash within it, a restart (`_free_name_counter` is None again), files created and deleted in the directory
* `run` any history of such operations
* `Names` the alternate names recorded for a file (stdattr.py `AlternateMirrorName`, `AlternateIncrementName`)
* `Loc` where a file or its increments are: in the usual place, or in the directory for long names
* `Item` One file of a session: its records, if any, in the old and new metadata; are its path and the path of its increments short enough?
* `mirTriple` longnames.py 100-126 `mir_triple_old`, `mir_triple_new`: location of the mirror file, alternate names
* `findIncPair` longnames.py 140-158 `find_inc_pair`
* `Placed` The result: location of the mirror file and of the increments, names recorded for the new file.
* `place` longnames.py 98-176 `get_mirror_inc_rps` with `update_rorp`
* `placeAll` the files of a session, one after the other

## MetaChain.lean

Model of the metadata history: `PatchDiffMan` (and the parts of `Manager` it uses) in `src/rdiffbackup/meta_mgr.py` lines 52-373. A metadata record is an index together with the attributes (`RORPath.data`); the attributes `none` stand for a record of `Type None`, which in a diff means "deleted". A metadata file is the list of its records (the text format is the subject of C23-C25). Only the main metadata ("mirror_metadata") is modelled; ACLs and EAs are not stored as diffs.

* `Rec` A record: a RORPath with index and data. `lstat()` is true iff `data` is not `none`.
* `MFile` A file `mirror_metadata.<time>.snapshot` or `.diff` of the data directory.
* `Dir` The `mirror_metadata` files of the data directory, in any order (the order of `listdir`).
* `sortedInclist` meta_mgr.py:229-267 `sorted_prefix_inclist`: newest first, only those not older than `minTime`. Duplicate times are a fatal error unless explicitly allowed (245-263): `none`.
* `getDiffIter` meta_mgr.py:288-297 `_get_diffiter`
* `maxDiffChain` meta_mgr.py:227 `max_diff_chain`
* `countDiffs` meta_mgr.py:316-320: number of diffs directly following
* `Check` What `_check_needs_diff` can answer.
* `checkNeedsDiff` meta_mgr.py:299-323 `_check_needs_diff`; `error` stands for the two assertions and the fatal error on duplicates.
* `convertToDiff` meta_mgr.py:269-286 `convert_meta_main_to_diff`: write the diff, then delete the snapshot.
* `session` The metadata side of one backup session at `time`: the new listing is written as snapshot (`_repo_shadow.py` `_CacheCollatedPostProcess`, via `get_writer` meta_mgr.py:103-114), then `convert_meta_main_to_diff` is called.
* `backToSnapshot` meta_mgr.py:350-356: from the end of the list back to the last snapshot
* `relevantIncs` meta_mgr.py:339-356 `_relevant_meta_main_incs`: `[snapshot, diff, ...]` newest first. `none` for an empty list, the failing assertion (346) and the fatal error (354).
* `iteratePatched` meta_mgr.py:358-373 `_iterate_patched_attr`: per index, the record of the oldest file having one decides; it is yielded unless it is a deletion. (The fatal error 373 would need a row without any record, which the join never has: C12.)
* `metaAtTime` meta_mgr.py:325-337 `_get_meta_main_at_time`. `restrict` is the restriction to the records at or below an index (`get_objects(restrict_index)`, see C25), here any predicate on indices.

## MetaRecord.lean

Model of the records of `mirror_metadata` files: `src/rdiffbackup/meta/stdattr.py` 64-139 `AttrExtractor`, 142-213 `AttrFile._object_to_record`; of the data dictionary of `src/rdiff_backup/rpath.py` (`RORPath`), of `RORPath.__eq__` (132-171) and of `get_rpath_data` (1698-1773). Simplifications: strings are byte strings (names are UTF-8 text in the code); MacOS resource forks and carbon files, extended attributes and ACLs are left out (the latter two have their own files); `int` accepts an optional minus sign and digits.

* `FType` rpath.py 132-171, stdattr.py 164-237: the values of `data['type']` (`None` is handled by the callers)
* `FType.str` stdattr.py 170-176: the word written after `Type`
* `FType.ofStr` stdattr.py 99-150: the word read after `Type`
* `Rorp` RORPath: index and data dictionary; a field is `none` if the key is missing. `type`: the value `None` is `none`. `uname`, `gname`: the outer option says whether there is the key, the inner one is the value (`None` or a name).
* `digitsAux` decimal digits, for `b"%i"`
* `fmtNat` `b"%i" % n` for natural numbers (stdattr.py 164-237)
* `fmtInt` `b"%i" % x`
* `isDigit` an ASCII digit
* `parseNat` Python's `int` on digits only (stdattr.py 99-150)
* `parseInt` `int`
* `joinSlash` rpath.py 408-416 `get_indexpath`, `path_join` (components do not start with a slash)
* `indexPath` rpath.py `get_indexpath`: `.` for the empty index, else joined by `/`
* `line` `b" Field %b\n"`
* `intLine` stdattr.py 164-237: `b" Field %i\n"`
* `nameOr` `rorpath.getuname() or ":"`
* `objectToRecord` stdattr.py 164-237 `_object_to_record`; `hardlinks`: generics.preserve_hardlinks; `none` is a KeyError
* `isAlnum` `[A-Za-z0-9]`
* `parseLine` stdattr.py 68 `line_parsing_regexp`, on one line
* `splitLines` the lines of a text
* `splitOn` `split(b"/")` and `split(b" ")`
* `filenameToIndex` stdattr.py 89-95 `_filename_to_index`
* `decodeName` stdattr.py 111-114: `:` and `None` stand for None
* `setField` stdattr.py 107-134: one field; `none` is a ValueError. Result: the index (once the field File has been seen) and the data
* `recordToObject` stdattr.py 97-139 `_record_to_object`
* `sameKey` `key not in other.data or self.data[key] != other.data[key]` for a key which `self` may have
* `sameName` rpath.py 163-167: user and group names
* `Cfg` generics.compare_inode, generics.preserve_hardlinks
* `Rorp.eqv` rpath.py 132-171 `__eq__` (without the keys of files and of other platforms)
* `Stat` What `lstat` gives (rpath.py 1706-1771).
* `fromStat` rpath.py 1698-1773 `get_rpath_data` for an existing file

## Owners.lean

Model of `src/rdiffbackup/locations/map/owners.py` and `src/rdiffbackup/utils/usrgrp.py`. Users and groups are treated alike (`is_user` only selects the database), so there is one database here. Names are lists of characters, ids are integers. Python's `int(str)` (`none`: ValueError) and `str.strip` are parameters.

* `Str` Python's `str`
* `Db` the system's database (/etc/passwd, /etc/group): names and ids in order
* `getpwnam` `pwd.getpwnam(name).pw_uid`, `none`: KeyError
* `getpwuid` `pwd.getpwuid(uid).pw_name`, `none`: KeyError
* `Cache` usrgrp.py 36-41: `_uid2uname` and `_uname2uid`: `none`: not in the dictionary
* `Cache.empty` usrgrp.py 30-44: the dictionaries are empty at the start
* `uid2uname` usrgrp.py 44-60 `uid2uname` (`gid2gname` 63-79); not Windows
* `uname2uid` usrgrp.py 82-98 `uname2uid` (`gname2gid` 101-117); not Windows
* `Defined` owners.py 124-126: the dictionaries of a `_DefinedMap`
* `split` `str.split(c)`
* `newId` owners.py 168-180 `_get_new_id`: `name2id` doesn't raise KeyError
* `addLine` owners.py 130-146: a line of the mapping; `none`: fatal error
* `define` owners.py 112-141 `_DefinedMap.__init__`; a mapping given as a string is split into lines first (128-129)
* `Defined.acl` owners.py 153-166 `_DefinedMap.map_acl`; `name = []` stands for `None` as well
* `Map` the three classes
* `initMap` owners.py 195-223 `init_users_mapping`, `init_groups_mapping`; `mapping`: the content of the file (arguments.py 72-74), split into lines by 128-129; `none`: fatal error
* `Val` a value of the dictionary of the command line arguments
* `values` the values argparse gives for the options `--user-mapping-file` (or `--group-mapping-file`) and `--preserve-numerical-ids` (actions/__init__.py 354-370): the keys are the names of the options with `-` replaced by `_`
* `initOwners` location.py 193-205 `_init_owners_mapping`
* `Map.acl` `map_acl`: 96-106, 159-172, 191-192
* `Map.call` `__call__`: 84-94, 148-157, 188-189

## PermChanger.lean

Access to unreadable files of the mirror during a restore by a user that is not root: `src/rdiffbackup/locations/_repo_shadow.py` 3174-3243 (`_PermissionChanger`), and how `_CachedRF` uses it (2827-2900).

* `Kind` what RS 3174-3243 asks of a file: `isreg`, `isdir`
* `Cls` which permission bits apply to the process
* `File` a file of the repository: type, which permission bits apply to the process, permissions
* `readable` rpath.py 921-928 `readable`
* `executable` rpath.py 930-937 `executable`; also what the kernel asks for before it looks into a directory
* `FS` The files below the mirror's base directory, which itself is taken to be accessible (the class does not look at it).
* `lstat` `os.lstat`: `none` is an exception (EACCES), `some none` a file which does not exist. The first ancestor that is no directory, or can't be searched, decides.
* `setPerms` the effect of chmod
* `chmod` rpath.py 741-759 `chmod`: fails if the file can't be reached, does not exist, or is not one's own. (The permission mask, which is for file systems without the high bits, is left out.)
* `St` RS 3183-3188; `fs` is the file system
* `restoreOld` RS 3208-3216 `_restore_old`
* `needsChange` RS 3221-3223: the permissions are not sufficient
* `relaxed` RS 3226-3229
* `addOne` RS 3220-3229: the body of the loop of `_add_chmod_new`
* `addAll` RS 3218-3229 `_add_chmod_new`
* `common` RS 3238-3241
* `newList` RS 3231-3243 `_get_new_rp_list`
* `call` RS 3190-3199 `__call__`, for a file without alternate name (with one, nothing is done)
* `callAll` RS 3174-3243: `__call__` for one index after the other
* `finish` RS 3201-3204 `finish`
* `Access` RS 2856-2900: getting one file from the cache. If needed its directory is listed (2886-2888), and it may be found (2862-2864) or not.
* `Access.calls` RS 3174-3243 and its users 2908-3120: which indexes are given to the permission changer before this access

## Pipe.lean

Model of `LowLevelPipeConnection` (`src/rdiff_backup/connection.py` 181-405): what is written to the pipe for each thing sent, and how it is read back from the pieces in which the bytes arrive. `pickle` is a parameter (a pair of functions of which one undoes the other); Python objects of the various types are given by their pickled values.

* `Bytes` Python's `bytes`
* `b2i` `int.from_bytes(b, byteorder="big")` (`_b2i` 334-336)
* `digits` the last `size` digits of `i` to base 256
* `byteLength` the number of bytes needed: `(i.bit_length() + 7) // 8`
* `toBytes` `i.to_bytes(size, byteorder="big")`, `none`: OverflowError
* `i2b` 338-342 `_i2b`: size 0 stands for as many as necessary
* `Pickle` `pickle.dumps` and `pickle.loads` for one type of objects
* `Item` What can be sent: a generic object, bytes, a file or an iterator, known to the other side by its number (`VirtualFile.new`), an RORPath (index and data), an RPath, QuotedRPath or StoredRPath (connection number, base, index and data), a connection (its number).
* `Pickles` the pickles: of generic objects, of RORPaths as pairs, of RPaths as quadruples
* `payload` letter and data for an item: 256-311
* `write` 313-326 `_write`: `none`: OverflowError
* `putMsg` 234-254 `_put`
* `putQuit` 306-308 `_putquit`
* `readPipe` `inpipe.read(n)` of a buffered reader: pieces are read until there are `n` bytes or the other side has closed the pipe. What is left of a piece stays in the buffer.
* `Got` the results of `_get`
* `decode` 361-387: the data are converted according to the letter (for `c`, the number is then looked up in the table of connections)
* `getMsg` 344-390 `_get`: the result and what remains in the pipe; MemoryError (357-361) isn't modelled

## Quoting.lean

Model of `src/rdiffbackup/utils/quoting.py` (whole file, lines 26-67). Byte strings are lists of `UInt8`.

* `Bytes` A Python `bytes` object.
* `nl` newline, `b"\n"`
* `bs` backslash, `b"\\"`
* `chN` the letter `n`
* `quotePath` quoting.py:33-51 `quote_path`. `_CHARS_TO_QUOTE = \n|\\` is a one-byte alternative, so `re.sub` handles each byte on its own (replacement_func 42-49).
* `unquotePath` quoting.py:54-67 `unquote_path`. `_CHARS_TO_UNQUOTE = \\n|\\\\` (two-byte sequences); `re.sub` scans left to right, a match consumes two bytes, everything else is copied.

## Regress.lean

Model of the regress after a failed backup: `_repo_shadow.py` (RS) 1637-1723 `needs_regress`, `regress`, 1831-1944 `_set_regress_time`, `_regress_rbdir`, `_iterate_meta_rfs`, `_iterate_raw_rfs`, 3246-3402 `_RegressFile`, `_RepoRegressITRB`. Simplifications: permissions are always sufficient (1929-1934, 3332); attributes of a directory are copied even if they are already loosely equal (3349); a special file is never represented by an empty regular file (`rpath.py` 249-251); the list of files is taken at the beginning (the code lists each directory when it gets there, before anything in it is changed).

* `Needs` RS 1637-1689 `needs_regress`: `none` is Python's `None`; `error`: no marker, or more than two.
* `needsRegress` RS 1637-1689 `needs_regress`: no increments at all: `None`; otherwise by the number of current_mirror markers
* `RSess` What a regress depends on besides the repository: the attributes of fresh files, the content of incompletely written files, an unused name for temporary files.
* `regressTimes` RS 1831-1854: newest marker (the failed backup), and the one before
* `rbdirSteps` RS 1867-1903 `_regress_rbdir`
* `insertKey` ordered insertion without repetition
* `rawKeys` RS 1934-1956 `_iterate_raw_rfs`: all paths in the mirror or among the increments (files and directories), in order
* `regressRows` RS 1906-1931 `_iterate_meta_rfs`: metadata without any file is skipped with a warning
* `looseEq` `equal_loose`, `rpath.py` 218-270
* `RCtx` what a regress has at hand (RS 1692-1800): the repository, the session which interrupts, the time of the failed and of the good session, the metadata of the good one
* `RCtx.mirror` the file in the mirror (`mirror_rp` of RS `_RegressFile`)
* `RCtx.rorp` `metadata_rorp`
* `RCtx.newer` RS 3258-3267 `_RegressFile.set_relevant_incs`, 2965-2979 `get_newer_incs`: increments of this file not older than the good session
* `RCtx.content` `get_restore_fp`; an arbitrary content stands for the empty file used after an error
* `RCtx.delSteps` RS 3315-3317, 3367-3369: the increment is deleted
* `RCtx.regfileSteps` RS 3371-3402 `_restore_orig_regfile`
* `RCtx.otherSteps` `delete` and `copy_with_attribs` for what is neither a regular file nor a directory
* `RCtx.fastSteps` RS 3309-3326 `fast_process_file`
* `RCtx.startSteps` RS 3328-3338 `start_process_directory`
* `RCtx.finishSteps` RS 3340-3369 `end_process_directory`
* `RCtx.eventSteps` RS 3283-3369 `_RepoRegressITRB`: `fast_process_file`, `start_process_directory`, `end_process_directory`
* `RCtx.canFast` RS 3305-3307 `can_fast_process`
* `regressSteps` The operations of a regress, RS 1693-1723. `none`: it breaks off with an error; the assertion of 3259 is checked for all files at the beginning here.
* `regress` A complete regress.

## Remove.lean

Model of the removal of old backups: `_repo_shadow.py` (RS) 1206-1250 `remove_increments_older_than`, 1400-1466 `_get_removal_time` (without `--size`).

* `Removal` Answers of `_get_removal_time`: `None`, `-1`, or a time.
* `removalTimes` RS 1416-1419: the times of `increments.<time>.dir` older than the given time
* `removalTime` RS 1400-1466 `_get_removal_time`
* `removeBefore` RS 1244-1249: everything with a time before `t` is deleted (increments, metadata and markers: all of them look like increments, increment.py 55-92), and directories left empty (`increments` itself is created again when needed, RS 399-411).
* `removeOlder` RS 1206-1250; `none`: an error.

## Repo.lean

Model of a repository (mirror, increments, metadata, markers) and of the incremental backup session: `src/rdiffbackup/locations/_repo_shadow.py` (below: RS), `src/rdiffbackup/locations/increment.py`, `src/rdiffbackup/actions/backup.py`. A session is a list of atomic file system operations (`Step`). Operations can fail, as the operating system would make them fail (creating something in a missing directory, removing a non-empty directory ...). Writing a file is never atomic: it is first there with arbitrary content ("junk"), then complete. Creating, renaming or deleting something changes the attributes (the modification time) of the directory it is in. Simplifications: hard links, long names, ACLs/EAs and resource forks are not part of this model; special files can always be created; the quoting of file names is C17; text formats are C23; reading errors of the mirror abort the session. Temporary files have one reserved name per directory. Attributes are those that `RORPath.__eq__` compares.

* `Ops` What the code computes with file contents and attributes: size, SHA1 (`hash.py`), librsync's delta and patch (`Rdiff.py`; taken by contract `patch_delta`), and the part of the attributes that `RORPath.equal_loose` (`rpath.py` 218-270) looks at.
* `Node` A file of the source or of the mirror. `other`: symbolic links, fifos, sockets, devices.
* `Node.isDir` `isdir`
* `Node.isReg` `isreg`
* `Node.attr` the attributes apart from type and content
* `Node.setAttr` `rpath.copy_attribs` (`rpath.py`)
* `MRec` The metadata of a file as recorded (C23): attributes, size and SHA1 (if known).
* `MRec.isDir` `isdir` of a metadata record
* `MRec.isReg` `isreg` of a metadata record
* `Files` Directory contents: a finite map from paths.
* `get` `lstat` of a path: the file there, if any
* `put` a file made or replaced at a path
* `del` the file at a path removed
* `delTree` rmtree
* `isDirAt` `isdir` of a path
* `Inc` An increment, `increment.py` 129-154; see `_make_missing_increment` and following (213-290).
* `IncFile` A file `increments/<path>.<time>.<type>`
* `State` A repository. `incdirs`: the directories under `increments/` (`[]` is `increments/` itself); `marks`: the times of the `current_mirror` files.
* `Step` Atomic operations on the repository.
* `touch` the attributes of a directory change when something in it is created, renamed or deleted
* `apply` The effect of an operation; `none` if it is refused. `stamp`: the attributes which new files get.
* `exec` Run operations one after the other; `none` if one is refused.
* `Sess` Everything a session depends on besides the repository: the time, the source as delivered by the selection (C26-C27), which transfers fail and for which no hash is reported, the attributes of fresh files, the content of incompletely written files.
* `eqMeta` `src_rorp == dest_rorp`, `rpath.py` 132-171 (the SHA1 is never in `src_rorp`)
* `Ctx` What a session sees: source and recorded metadata of the mirror (RS 526-565).
* `Ctx.mirror` `mirror_rp` (`self.basis_root_rp.new_index(index)`) RS 2503-2530, 2745-2790
* `Ctx.src` the file in the source directory (_dir_shadow.py 58-75)
* `Ctx.dst` `CCPP.get_mirror_rorp` RS 2284-2289
* `rowPair` index, source and destination of a collated pair (RS 2172-2193)
* `Ctx.pairs` RS 547-565: collated source and destination, with the index of each pair
* `changedPair` RS 567-594 `_sigs_iterator`: is the pair different?
* `Ctx.changed` the indices for which the source is asked for a diff
* `Ctx.filled` RS 273-295 `apply`: the diffs, with missing parent directories filled in (C14).
* `Ctx.isFiller` whether rorpiter.py 394-430 `FillInIter` made the directory up
* `isDirNode` `lstat() and isdir()`
* `isDirRec` `is not None and isdir()`
* `Ctx.canFast` RS 2498-2501 `can_fast_process`; a filler is the directory on disk (rorpiter.py 394-434)
* `Ctx.events` the calls made by the tree reducer (C13)
* `tmpOf` `get_temp_rpath(sibling=True)`
* `Patched` RS 2471-2475: results of `_patch_to_temp`; `tf` is what is in the temporary file, if anything
* `Ctx.patch` RS 2564-2668 `_patch_to_temp` with `_patch_snapshot_to_temp`, `_patch_diff_to_temp` and `_matches_cached_rorp`; the diff sent for a regular file is a delta against the mirror file if that is regular (`_dir_shadow.py` 110-167 `get_diffs`).
* `Ctx.writeTmp` writing the temporary file
* `Ctx.makeIncrement` increment.py 129-154 `make_increment`; `newDir`, `newReg`: the type of `new`. Nothing happens in the first backup (`_RepoPatchITRB`).
* `Ctx.fastSteps` RS 2742-2780 (first backup: 2506-2535) `fast_process_file`
* `Ctx.startSteps` RS 2782-2806 (first backup: 2537-2549) `start_process_directory`, with `_prepare_dir` 2715-2729 and `_set_dir_replacement` 2690-2713
* `Ctx.finishSteps` RS 2551-2562 `end_process_directory`
* `Ctx.eventSteps` RS 2470-2806: `fast_process_file`, `start_process_directory`, `end_process_directory` of the patching or of the incrementing ITRB
* `srcRec` The record of a source file, once transferred: `update_hash` RS 2292-2304
* `Ctx.newRec` RS 2422-2452 `_post_process`: which record is written: of the source after success (flag 1), none after a deletion (2), else the old one (0: nothing done, or failed).
* `Ctx.listing` the metadata written, in the order of the collated pairs
* `convertSteps` meta_mgr.py 269-286 `convert_meta_main_to_diff` as operations (C07 has it in one piece)
* `destOf` RS 526-545 `_get_dest_select`: the metadata at the time of the mirror; without previous backup what is in the directory (no hashes known).
* `mirrorTime` RS 743-779 `get_mirror_time` (`must_exist=False`): `none` is -1, `some none` is 0
* `sessionSteps` The operations of a whole session: actions/backup.py 105-155, RS 264-300, RS 2317-2325 `close`, RS 653-703. `none`: the session is refused or breaks off with an error before changing anything.
* `backup` A complete backup session.
* `incrementTimes` RS 805-822 `get_increment_times` (sorting and removing duplicates does not matter for what is done with it here)
* `setRestoreTime` RS 924-945 `_set_restore_time`
* `Rel` an element of `relevant_incs`
* `newerIncs` RS 2965-2981 `get_newer_incs`
* `takeRelevant` RS 2953-2959: leading diffs and the first increment of another type
* `endsInDiff` RS 2959-2963: whether the mirror must be added, as the last increment is a diff
* `setRelevantIncs` RS 2940-2963 `set_relevant_incs`: newest first
* `firstContent` RS 3124-3147 `_get_first_fp`
* `patchAll` RS 3003-3024: apply the diffs
* `restoreFp` RS 3000-3049 `get_restore_fp`; `none` for the failing assertions and for the cases where an empty file is returned after a warning
* `restoreContent` the content of a regular file at time `t`: RS 2831-2848 `get_fp`
* `restoreOne` one file restored to an empty target: RS 981-992 `_get_diff`
* `allSome` all results, if none of them is an exception (the first one ends the loop)
* `restore` Restore the whole tree, or what is below `sub`, as of time `t` to an empty target: RS 827-835, 846-870 (the listing comes from the metadata), 909-922 `get_diffs`, 956-995. With two markers nothing is restored: actions/restore.py 193-201 (not so in the rare state where the check does not find the interruption, see C06 `not_always_detected`; restoring there is not modelled).

## RepoStats.lean

The statistics events of a backup session of the model `Verif.Model.Repo` (`src/rdiffbackup/locations/_repo_shadow.py` = RS).

* `statFile` a source rorp for the statistics: `isreg()`, `getsize()`
* `statRec` a rorp from the metadata
* `Ctx.success` The success flag of a pair at the end (RS 2254-2260): set by `fast_process_file` (RS 2742-2780, 2506-2535), `start_process_directory` and `_prepare_dir` (RS 2715-2729, 2782-2806, 2537-2549). For a directory filled in because of changes below it, `cached` tells if it was still in the cache (RS 2727-2729). Failing to replace a directory is not modelled (as in `Ctx.newRec`).
* `Ctx.statPair` what `_post_process` sees of a pair
* `statInc` increment.py 153: one event for each increment file made; `incSize` is the size it has on disk (increments may be compressed)
* `sessionStats` The statistics of a session.

## RestoreDir.lean

Model of restoring into a directory which is there already: `src/rdiffbackup/locations/_repo_shadow.py` (RS) 908-993 `get_diffs`, and `src/rdiffbackup/locations/_dir_shadow.py` (DS) 372-527 `WriteDirShadow.apply`, `_DirPatchITRB`. The target is a directory tree with the operations of `Verif.Repo.apply` (a repository without increments, metadata and markers). Simplifications: those of `Verif.Repo`; the target is listed in order (C27) before it is changed; no selection options; the top of the target and what is restored are directories; a file's type and attributes on disk are those it had when listed until its turn comes (`can_fast_process`, DS 418-421, and `FillInIter` look at the disk). A wrong SHA1 only gives a warning (DS 485-508).

* `rEq` `mir_rorp == target_rorp`, `rpath.py` 132-171. All the keys of `mir_rorp` are compared, and "sha1" is not in `target_rorp`.
* `differs` RS 962-973: is there a diff for the pair?
* `getDiff` RS 980-993 `_get_diff`: the file as it was, or one "missing" if the target has a file that the backup doesn't have. `none` if the content can't be restored.
* `subtract` RS 884-905 `_subtract_indices`
* `getDiffs` RS 909-922 `get_diffs`, 956-978 `_get_diffs_from_collated`
* `RCtx` What `apply` has: the diffs, the target before, and what fresh and incomplete files look like.
* `RCtx.filled` DS 383-384: the diffs with fillers
* `RCtx.base` the type of a file of the target when its turn comes
* `RCtx.diff` the diff for a path (also a filler: rorpiter.py 410, 419 takes the file on disk)
* `RCtx.canFast` DS 418-421 `can_fast_process`
* `RCtx.events` DS 383-387 with C13
* `RCtx.writeTmp` DS 461-477 `_patch_to_temp`: all diffs are snapshots; nothing is written for a missing file (`rpath.copy`, rpath.py 1486-1489)
* `RCtx.fastSteps` DS 423-428 `fast_process_file`; `rpath.rename` (rpath.py 1652-1653) of a file which isn't there deletes the destination
* `RCtx.startSteps` DS 430-442 `start_process_directory`, 504-511 `_prepare_dir`, 513-527 `_set_dir_replacement`
* `RCtx.finishSteps` DS 442-453 `end_process_directory`
* `RCtx.eventSteps` _dir_shadow.py 393-527 `_DirPatchITRB`: `fast_process_file`, `start_process_directory`, `end_process_directory`
* `RCtx.apply` DS 372-389 `apply`: the target afterwards; `none` if an operation is refused
* `restoreTo` actions/restore.py 219-235 `_operate_restore`

## SStats.lean

Session statistics: `src/rdiffbackup/singletons/sstats.py`, and the places that call it (`src/rdiffbackup/locations/_repo_shadow.py` 2425-2451, `increment.py` 153, `robust.py` 114).

* `File` A rorp as far as the statistics look at it: `lstat()`, `isreg()` and `getsize()`.
* `Totals` sstats.py 74-118: the thirteen file attributes and `Errors` of a `SessionStatsTracker`
* `addSourceFile` sstats.py 351-355
* `addDestFile` sstats.py 357-361
* `present` `rorp and rorp.lstat()`
* `addChanged` sstats.py 363-378
* `addIncrement` sstats.py 380-384
* `Flag` The success flag of a pair (RS 2213-2218).
* `Pair` A pair leaving the cache: the arguments of `_post_process`.
* `postProcess` RS 2425-2447: the part of `_post_process` that does statistics
* `Event` What happens to the statistics during a session, in any order.
* `step` one event changes the counters: RS 2422-2452 `_post_process`, sstats.py 376-392
* `session` sstats.py 337-349: a fresh tracker has zeros; then all events of the session
* `Attr` sstats.py 74-134: the names of the statistics
* `Attr.name` sstats.py 99-118
* `fileAttrs` sstats.py 99-114, in the order of the file
* `inBytes` sstats.py 120-135: is the value a number of bytes?
* `allAttrs` sstats.py 118 `_stat_attrs`
* `Obj` A `SessionStatsCalc` object: the attributes that are not None, in hundredths.
* `Obj.set` `setattr`
* `totalDestSizeChange` sstats.py 197-216 `_get_total_dest_size_change`
* `elapsed` sstats.py 266-269: the elapsed time is computed unless it is known
* `fmtCent` `"%.2f" % x`
* `statLine` One line of the file; `pretty` is the explanation in parentheses.
* `timeLine` sstats.py 246-266 `_get_timestats_string`; `pretty` stands for `Time.timetopretty`, `Time.inttopretty`
* `fileLine` sstats.py 271-280 `fileline`; `pretty` stands for `convert.to_human_size_str`. The values are whole numbers in every object that is written to a file.
* `totalLine` sstats.py 300-304
* `errorsLine` sstats.py 305-307
* `miscString` sstats.py 284-295 `_get_miscstats_string`
* `statsString` sstats.py 238-244 `_get_stats_string`
* `isSpace` the bytes `str.split()` separates at
* `splitWs` `split()` before dropping empty words
* `words` `line.split()`
* `toDouble` The double nearest to a whole number (IEEE 754, ties to even).
* `parseAbs` `float` on what follows the sign; only the forms that are written: digits, or digits with two decimals (numbers with two decimals are taken to be what they say)
* `parseDec` sstats.py 325-330 `float(value_string)`
* `readLine` sstats.py 316-332: one line; `none` is a `StatsException`
* `readStats` sstats.py 297-320 `_set_stats_from_string`
* `avgStep` sstats.py 159-167: one attribute of one object
* `calcAverage` sstats.py 152-176 `calc_average`; without objects it divides by zero, the error is `none`. Values are exact fractions here: numerator in hundredths and the number of objects.

## Security.lean

What a server answers: `src/rdiff_backup/Security.py`, called for each request by `src/rdiff_backup/connection.py` 549-568 `_answer_request`. Paths are bytes; 47 is the slash, 46 the dot. POSIX only (`os.path.altsep` is `None`).

* `Level` Security.py 33-39 `_security_level`; `override` is set by tests only (rdiffbackup/run.py 100-104).
* `Class` actions/*.py `security`; `none` is for the actions without one (`complete`, `info`).
* `Arg` An argument of a request, as `connection.py` 340-420 has made it from what came through the pipe: a path on a connection, which is or is not the local one of the server, or bytes, or a string, or anything else (numbers, dictionaries, iterators, paths without base, ...).
* `Request` connection.py `ConnectionRequest` with its arguments
* `Server` The variables of Security.py 39-48, and `RepoShadow._base_dir` (local only; without the paths of other connections). `restrict` is `_restrict_path`, of which `_restrict_path_list` is the split.
* `joinOne` one step of `os.path.join`
* `pathJoin` rpath.py 103-122 `path_join`
* `isAlnum` `bytes.isalnum` for one byte
* `kept` rpath.py 996-998: the components that stay
* `isUnc` rpath.py 1001-1003: two slashes and a letter or digit
* `normalize` rpath.py 990-1007 `normalize`
* `vetPath` Security.py 325-350 `_vet_rpath` for a local path; `r` is the restriction.
* `vetArg` Security.py 113-116: one of the arguments
* `fileRequests` Security.py 60-65 `_file_requests`; the position is always 0
* `globalsRequests` Security.py 68-71 `_globals_requests`
* `fileName` `os.fsencode` of a file name, for what is `bytes`, `str` or `os.PathLike` (strings in UTF-8; surrogate escapes are not modelled)
* `vetFilename` Security.py 311-322 `_vet_filename`
* `minimalRequests` Security.py 196-218
* `commonRequests` Security.py 219-234
* `readRequests` Security.py 235-263
* `updateRequests` Security.py 264-278
* `writeRequests` Security.py 279-296
* `serverRequests` Security.py 297-307
* `allowed` Security.py 192-308 `_set_allowed_requests`
* `globalOk` Security.py 121-123: not one of the `_disallowed_server_globals`; without argument an IndexError
* `vetRequest` Security.py 109-124 `vet_request`: is the request executed? (Every exception, a Violation or another one, keeps it from being executed: connection.py 560-568.)
* `setSecurityLevel` Security.py 127-189 `_set_security_level`; `pairs` are the locations: is there a command (then it is remote), and the path. `tmp` is `tempfile.gettempdirb()`. `none`: an exception.
* `start` Security.py 74-90 `initialize` (a keyword in Lean): an empty restriction is none
* `dirname` rpath.py 1011-1027 `dirsplit`, the directory
* `parentRp` rpath.py 1029-1037 `get_parent_rp`
* `World` What the search for the base directory asks the file system: is this a directory with `rdiff-backup-data` in it? And does the name look like an increment file (increment.py `isincfile`)?
* `dataName` `b"rdiff-backup-data"`
* `searchUp` _repo_shadow.py 508-516: the parents, `n` of them
* `repositoryDir` _repo_shadow.py 447-522 `_get_repository_dirs`, the base directory. (In line 486 the increment must be directly in `rdiff-backup-data/increments`; what else is like an increment gives no repository, and the result does not matter; here the directory above the data directory is also given then.)
* `Effect` What the execution of a request does to the variables that the next requests are vetted with. `RepoShadow.init` (_repo_shadow.py 93-146) sets `_base_dir`, with the search if `can_be_sub_path`, and `RepoShadow.setup` (150-159) calls `Security.reset_restrict_path` with it (Security.py 93-106), unless it fails before. What the other requests do is not modelled.
* `Answer` connection.py 549-572: a request comes in and is executed (`true`), or not.
* `Event` What happened: the file system at the time of the request (it may change between requests), the request, and whether it was executed.
* `Run` Requests come in one after the other.

## Selection.lean

Model of `src/rdiff_backup/selection.py` (`Select`, `FilterIter`), without the parsing of globs (see `Model/Glob.lean`). An index is a list of names (`List α`). Conditions which look at the path (globs, regular expressions) are predicates on the index: the path is the fixed base directory with the index appended.

* `Val` selection.py 92-94: EXCLUDE, INCLUDE, DOSCAN
* `Kind` file types (`data['type']`)
* `File` what conditions see of a file
* `File.isdir` `rpath.isdir()`
* `Cond` selection conditions; `incl`: the option includes (otherwise it excludes)
* `Cond.exclude` the attribute `exclude`
* `Cond.checkFilename` the attribute `check_filename`
* `val` selection.py 571-587: the value which a selection function returns, 1 for include options and 0 for exclude options
* `pairMatch` 443-476 `_filelist_pair_match`: (include, move_on)
* `filelistFn` 373-383 the selection function of a file list: result and rest of the list
* `tupleLe` the order of Python's tuples (index, include)
* `mkFilelist` 355-388 `_filelist_get_sf`: sorted list and attribute `exclude` (426, 387); `incDefault`: the option is `--include-filelist`
* `Cond.apply` A condition applied to the file at index `i`; `file = none`: the empty path used by `_select_filename` (262), which has no type. The result is the answer (`none`: nothing to say) and the condition afterwards; `none` if an exception is raised.
* `selectFrom` 137-148 `select_default`, from the value of `scanned`; result and conditions afterwards
* `selectDefault` selection.py 137-148 `select_default`: the conditions in order, include if none decides
* `selectNameFrom` 122-135 `_select_filename`
* `selectFilename` selection.py 122-135 for a whole list of conditions
* `withRbdir` 196-199 `parse_rbdir_exclude`; `rb`: the name `rdiff-backup-data`
* `entry` 259-273 `diryield`: one name of the directory. The first component is INCLUDE or DOSCAN if the file is to be generated.
* `Forest` the content of a directory: names with files and the contents of these (not looked at for other files than directories)
* `Forest.size` not in the code: number of files (termination measure)
* `walkLoop` 278-298: the loop of `_iterate_rpath`; `stack`: diryield_stack, innermost first, each generator by the directory and the names still to come; `delayed`: delayed_rp_stack, innermost first. Result: the indices generated; `none` if an exception is raised. (Generators run only when the next element is wanted, so conditions are asked in the order of this loop.)
* `iterate` 240-298 `_iterate_rpath` for the root directory (or another root file)
* `FSt` `FilterIter` 839-880 and the branches of its `IterTreeReducer` (rorpiter.py 93-196): `branches`: base_index and branch_excluded, innermost first; `queue`: base_queue, last first
* `fastFile` 907-920 `fast_process_file`: new state and output
* `startDir` 922-941 `start_process_directory` of the new branch
* `filterStep` rorpiter.py 115-153 `__call__` (called at selection.py 879)
* `filterFrom` selection.py 839-880 `FilterIter`: one record after the other
* `filterIter` `FilterIter(select, rorp_iter)`
* `listing` the paths of a directory in index order, as the metadata file lists them
* `metadata` the records of a whole tree in order: root first (the metadata of a mirror)

## Sort.lean

Python's `list.sort`, a stable sort (written as insertion sort so that it can be evaluated in proofs).

* `insertBy` insert before the first element which is not smaller
* `sortBy` `list.sort` with the order `le`

## TimeStr.lean

Model of the time strings of `src/rdiff_backup/Time.py` (92-121 `stringtotime`, 75-85 `timetostring`, 236-268 `_intervalstr_to_seconds`, 266-285 `_get_tzd`, `_tzd_to_seconds`, 306-318 `_time_from_session`), and of the library functions they use: `time.localtime` with `strftime`, `calendar.timegm`, `int`. Simplifications: UTC offsets are whole minutes (as `%z` prints them); times are whole seconds; `int()` accepts an optional sign and ASCII digits (Python also accepts surrounding blanks, underscores and other digits).

* `Tm` Python's `time.struct_time`
* `isLeap` Python's `calendar.isleap`
* `monthLens` Python's `calendar.mdays`
* `daysBeforeYear` `datetime.date(year, 1, 1).toordinal() - 1`
* `daysBeforeMonth` `datetime.date(year, month, 1).toordinal() - 1`
* `findMonth` month (counted from `m`) and day of the month, from the day of the year
* `ymd` `datetime._ord2ymd`
* `epochDay` day number of 1970-01-01
* `gmtime` `time.gmtime`
* `timegm` `calendar.timegm`
* `dig` a decimal digit
* `pad2` `%02d`
* `pad4` `%04d`
* `isDig` an ASCII digit
* `valDig` the value of a digit
* `parseNat` Python's `int` on digits only (Time.py 92-122, 288-303)
* `parseInt` Python's `int`
* `sep` the separator of `TIMEDATE_FORMAT_STRING` or `TIMEDATE_FORMAT_COMPAT` (Time.py 47-49, 285-288)
* `getTzd` Time.py 266-285 `_get_tzd`; `off`: UTC offset in minutes
* `timetostring` Time.py 75-85 `timetostring`; `off`: the UTC offset which `localtime` uses for this time
* `tzdToSeconds` Time.py 295-303 `_tzd_to_seconds`; `none` is a ValueError
* `splitSep` `re.split("[T:-]", ...)`
* `stringtotime` Time.py 92-121 `stringtotime`
* `unitSeconds` Time.py 25-33 `_interval_conv_dict`
* `intervalLoop` Time.py 38, 253-267: the loop; `num`: the digits of the current number read so far, if any
* `intervalToSeconds` Time.py 237-263 `_intervalstr_to_seconds`; `none` is a TimeException
* `timeFromSession` Time.py 306-318 `_time_from_session`; `none` is an IndexError (no sessions at all)
* `truthy` Python's truth value of the result of `stringtotime`: neither None nor 0
* `isNum` one or two digits at the end of the string or before a separator, as `[0-9]{1,2}`
* `splitDate` splits at `-` and `/`
* `matchDate` Time.py 39-44 `_genstr_date_regexp1`, `_genstr_date_regexp2`: (year, month, day)
* `genstrtotime` Time.py 175-234 `genstrtotime`; `none` is a TimeException (or an IndexError for `nB` without sessions). `pretty` is `prettytotime` (Time.py 137-144, `strptime`), `off` the current UTC offset. Simplification: `timestr` contains no newline (Python's `$` also matches before a final one).

## TreeReducer.lean

Model of `IterTreeReducer`, `src/rdiff_backup/rorpiter.py` lines 93-196. The calls made on the branch objects are recorded as events. `can_fast_process` may be any function of the element, so an element is its index together with the answer. `gather_from_child` is a stub everywhere outside the tests (224-227) and is not recorded.

* `Event` the calls `branch.start_process_directory`, `fast_process_file`, `end_process_directory`
* `St` rorpiter.py:105-113: `self.index`, `self.branches` (their `base_index`, innermost first) and `self.root_fast_processed`.
* `init` rorpiter.py:105-113 `__init__`. (The root branch has no base_index yet.)
* `finishBranches` rorpiter.py:169-189 `_finish_branches`: events and remaining branches; an empty remainder means "out of the entire tree".
* `Res` Result of one call: `ValueError`, or (events, new state, returned value).
* `call` rorpiter.py:115-153 `__call__`.
* `finishProcessing` rorpiter.py:155-163 `finish_processing`.
* `runFrom` The use made of it everywhere: call on each element in turn, then `finish_processing`. `none` if a call raises or returns `False`.
* `run` rorpiter.py 93-196: a new `IterTreeReducer` called on all elements (see `runFrom`)

{
 "claims": [
  {
   "property": "C01",
   "status": "proved",
   "theorems": [
    "Verif.C01.restore_exact",
    "Verif.C01.backup_then_restore",
    "Verif.C01.backups_restore"
   ],
   "note": ""
  },
  {
   "property": "C02",
   "status": "proved",
   "theorems": [
    "Verif.C02.restore_newest",
    "Verif.C02.restore_oldest",
    "Verif.C02.increment_times_exact"
   ],
   "note": ""
  },
  {
   "property": "C03",
   "status": "proved",
   "theorems": [
    "Verif.C03.older_unchanged",
    "Verif.C03.not_later_refused"
   ],
   "note": ""
  },
  {
   "property": "C04",
   "status": "proved",
   "theorems": [
    "Verif.C04.crash_regress",
    "Verif.C04.interrupted_recovers",
    "Verif.C04.backup_again"
   ],
   "note": "Regress assumptions are stated in ValidRegress: unused temporary name, fresh files look different from the files they replace."
  },
  {
   "property": "C05",
   "status": "proved",
   "theorems": [
    "Verif.C05.regress_restartable",
    "Verif.C05.retried_reach"
   ],
   "note": ""
  },
  {
   "property": "C06",
   "status": "partial",
   "theorems": [
    "Verif.C06.markers",
    "Verif.C06.interrupted_two_markers",
    "Verif.C06.complete_one_marker",
    "Verif.C06.interrupted_refused",
    "Verif.C06.detected_partial",
    "Verif.C06.no_false_alarm",
    "Verif.C06.complete_only_backup",
    "Verif.C06.unclear_refused",
    "Verif.C06.not_always_detected"
   ],
   "note": "Markers and refusal proved in full. Detection by needs_regress is proved unless increments/ is empty; there the code fails (witness not_always_detected, finding F3)."
  },
  {
   "property": "C09",
   "status": "proved",
   "theorems": [
    "Verif.C09.kept_restorable",
    "Verif.C09.remove_keeps",
    "Verif.C09.older_gone",
    "Verif.C09.interrupted_removal_leaves_broken_backup"
   ],
   "note": "Also for interrupted removals (kept backups). Finding F12: what is being removed may be left broken."
  },
  {
   "property": "C10",
   "status": "proved",
   "theorems": [
    "Verif.C10.refused_iff",
    "Verif.C10.nothing_to_remove",
    "Verif.C10.removed",
    "Verif.C10.two_backups_removed_without_force",
    "Verif.C10.removal_destroys_interrupted"
   ],
   "note": "Increments are counted by increments.<time>.dir files as the code does; findings F10, F11 as witnesses."
  },
  {
   "property": "C07",
   "status": "proved",
   "theorems": [
    "Verif.C07.meta_read_exact",
    "Verif.C07.meta_session_succeeds",
    "Verif.C07.meta_history_exact"
   ],
   "note": ""
  },
  {
   "property": "C08",
   "status": "proved",
   "theorems": [
    "Verif.C08.chain_bounded"
   ],
   "note": ""
  },
  {
   "property": "C11",
   "status": "proved",
   "theorems": [
    "Verif.C11.collate2_outer_join"
   ],
   "note": ""
  },
  {
   "property": "C12",
   "status": "proved",
   "theorems": [
    "Verif.C12.collateIterators_join",
    "Verif.C12.yieldTuples_isNJoin",
    "Verif.C12.yieldTuples_index",
    "Verif.C12.join_unique",
    "Verif.C12.two_streams_agree"
   ],
   "note": ""
  },
  {
   "property": "C13",
   "status": "proved",
   "theorems": [
    "Verif.C13.reducer_nested",
    "Verif.C13.reducer_single_file",
    "Verif.C13.nested_starts_eq_finishes",
    "Verif.C13.out_of_order_refused",
    "Verif.C13.leaving_tree_ends_all"
   ],
   "note": ""
  },
  {
   "property": "C14",
   "status": "proved",
   "theorems": [
    "Verif.C14.fillIn_spec"
   ],
   "note": ""
  },
  {
   "property": "C15",
   "status": "proved",
   "theorems": [
    "Verif.C15.unquote_quote",
    "Verif.C15.quote_no_newline",
    "Verif.C15.quote_injective",
    "Verif.C15.quote_plain"
   ],
   "note": ""
  },
  {
   "property": "C16",
   "status": "proved",
   "theorems": [
    "Verif.C16.unquote_quote",
    "Verif.C16.quote_safe",
    "Verif.C16.quote_injective",
    "Verif.C16.quote_exact",
    "Verif.C16.unquote_octal",
    "Verif.C16.unquote_other"
   ],
   "note": ""
  },
  {
   "property": "C17",
   "status": "partial",
   "theorems": [
    "Verif.C17.unquote_quote_partial",
    "Verif.C17.not_unquote_quote",
    "Verif.C17.quote_injective",
    "Verif.C17.quote_avoids"
   ],
   "note": "Round trip proved unless a byte >= 128 has to be quoted; for those the code is wrong (witness not_unquote_quote)."
  },
  {
   "property": "C18",
   "status": "proved",
   "theorems": [
    "Verif.C18.no_trailing",
    "Verif.C18.no_dos_device",
    "Verif.C18.others_unchanged",
    "Verif.C18.unquote_quote"
   ],
   "note": ""
  },
  {
   "property": "C19",
   "status": "partial",
   "theorems": [
    "Verif.C19.roundtrip_partial",
    "Verif.C19.genstr_roundtrip_partial",
    "Verif.C19.not_roundtrip",
    "Verif.C19.not_roundtrip_newfoundland",
    "Verif.C19.epoch_refused"
   ],
   "note": "Round trip proved for UTC offsets >= 0 or of whole hours; for all other offsets the code is wrong for every time (not_roundtrip, finding F1)."
  },
  {
   "property": "C20",
   "status": "proved",
   "theorems": [
    "Verif.C20.interval_exact",
    "Verif.C20.interval_rejected",
    "Verif.C20.interval_append",
    "Verif.C20.genstr_interval"
   ],
   "note": ""
  },
  {
   "property": "C21",
   "status": "proved",
   "theorems": [
    "Verif.C21.nth_newest",
    "Verif.C21.oldest"
   ],
   "note": ""
  },
  {
   "property": "C22",
   "status": "partial",
   "theorems": [
    "Verif.C22.name_roundtrip_partial",
    "Verif.C22.name_injective_partial",
    "Verif.C22.name_injective_one_zone",
    "Verif.C22.name_roundtrip_no_time",
    "Verif.C22.time_lost",
    "Verif.C22.lookup_exact",
    "Verif.C22.lookup_sound",
    "Verif.C22.lookalike_listed"
   ],
   "note": "Round trip except for the time zones of finding F1 (time_lost); injectivity within one time zone in full. Finding F14 as witness lookalike_listed."
  },
  {
   "property": "C23",
   "status": "proved",
   "theorems": [
    "Verif.C23.roundtrip",
    "Verif.C23.attributes_restored",
    "Verif.C23.user_None_lost",
    "Verif.C23.empty_link_lost"
   ],
   "note": "Names the format cannot hold (finding F6) are excluded by Proper, with witnesses that they are lost."
  },
  {
   "property": "C24",
   "status": "proved",
   "theorems": [
    "Verif.C24.iterate_written"
   ],
   "note": ""
  },
  {
   "property": "C25",
   "status": "proved",
   "theorems": [
    "Verif.C25.restricted"
   ],
   "note": ""
  },
  {
   "property": "C47",
   "status": "proved",
   "theorems": [
    "Verif.C47.unchanged_equal"
   ],
   "note": ""
  },
  {
   "property": "C48",
   "status": "partial",
   "theorems": [
    "Verif.C48.equal_unchanged_partial",
    "Verif.C48.fifo_undetected"
   ],
   "note": "Except for an empty file replaced by a fifo or socket, where the code does not see the change (fifo_undetected, finding F15)."
  },
  {
   "property": "C26",
   "status": "partial",
   "theorems": [
    "Verif.C26.first_match_wins",
    "Verif.C26.decision_unique",
    "Verif.C26.rbdir_never_selected",
    "Verif.C26.name_check_sound_partial",
    "Verif.C26.exclude_other_filesystems_fails",
    "Verif.C26.included_by_mixed_list_lost"
   ],
   "note": "The decision itself is proved in full. The iterator's first check by name only respects it except for --exclude-other-filesystems (F19, raises) and file lists with exclusions (F18), with witnesses."
  },
  {
   "property": "C27",
   "status": "partial",
   "theorems": [
    "Verif.C27.iterates_selected_partial",
    "Verif.C27.decide_is_decision",
    "Verif.C27.single_file"
   ],
   "note": "For every tree and every list of conditions except those of findings F18 and F19 (C26), for which the code is wrong."
  },
  {
   "property": "C28",
   "status": "partial",
   "theorems": [
    "Verif.C28.metadata_selection_partial",
    "Verif.C28.metadata_selection_same",
    "Verif.C28.scanned_file_raises",
    "Verif.C28.below_excluded_directory",
    "Verif.C28.empty_scanned_directory"
   ],
   "note": "The code does not agree in general: witnesses F16, F4, F17. Proved under the hypotheses these violate."
  },
  {
   "property": "C29",
   "status": "partial",
   "theorems": [
    "Verif.C29.history_independent",
    "Verif.C29.excluded_iff",
    "Verif.C29.included_iff_partial",
    "Verif.C29.included_iff_of_separate",
    "Verif.C29.listed_included",
    "Verif.C29.parent_not_included"
   ],
   "note": "Exclusion exact. Inclusion of parents fails if an excluded sibling sorts first (F20, witness); exact otherwise."
  },
  {
   "property": "C30",
   "status": "partial",
   "theorems": [
    "Verif.C30.matches_documented",
    "Verif.C30.matches_iff",
    "Verif.C30.ignorecase_prefix",
    "Verif.C30.above_scanned_partial",
    "Verif.C30.included_file_is_generated_partial",
    "Verif.C30.root_scanned",
    "Verif.C30.class_matches_slash",
    "Verif.C30.escaped_star_cut",
    "Verif.C30.newline_at_end",
    "Verif.C30.star_matches_absolute",
    "Verif.C30.question_matches_byte"
   ],
   "note": "Matching exact for all globs and paths not ending in a newline (F22). Scanning proved for globs whose classes do not match '/' and without escaped '/' or '**' (F21 witnesses otherwise)."
  },
  {
   "property": "C31",
   "status": "proved",
   "theorems": [
    "Verif.C31.linked_to_first",
    "Verif.C31.later_is_linked",
    "Verif.C31.bookkeeping",
    "Verif.C31.dropped_with_last",
    "Verif.C31.no_keyerror",
    "Verif.C31.links_as_in_source_partial",
    "Verif.C31.hashes_of_first",
    "Verif.C31.old_digest_handed_on",
    "Verif.C31.not_linked_na",
    "Verif.C31.not_linked_digest"
   ],
   "note": "The listed statement in full. In addition: the links of the mirror after the session are those of the source unless findings F25 or F26 apply (links_as_in_source_partial, witnesses)."
  },
  {
   "property": "C32",
   "status": "partial",
   "theorems": [
    "Verif.C32.one_writer",
    "Verif.C32.no_reader_with_writer",
    "Verif.C32.one_writer_partial",
    "Verif.C32.no_reader_with_writer_partial",
    "Verif.C32.lock_available",
    "Verif.C32.reader_has_lock",
    "Verif.C32.two_initial_backups",
    "Verif.C32.reader_without_lock",
    "Verif.C32.two_readers"
   ],
   "note": "Proved for all schedules once the first backup has written current_mirror, and before as long as no failed initial backup is removed; otherwise false (two_initial_backups, F27)."
  },
  {
   "property": "C33",
   "status": "partial",
   "theorems": [
    "Verif.C33.mapping_applied",
    "Verif.C33.no_mapping",
    "Verif.C33.numerical",
    "Verif.C33.bad_line_refused",
    "Verif.C33.maps_unique",
    "Verif.C33.cache_transparent",
    "Verif.C33.numerical_option_ignored",
    "Verif.C33.numerical_option_wrong",
    "Verif.C33.acl_number_dropped",
    "Verif.C33.cache_not_transparent"
   ],
   "note": "The mapping itself is proved in full; but the option for numerical ids never reaches it (F29, numerical_option_ignored)."
  },
  {
   "property": "C34",
   "status": "proved",
   "theorems": [
    "Verif.C34.messages_roundtrip",
    "Verif.C34.quit_received",
    "Verif.C34.can_send",
    "Verif.C34.cut_data_accepted"
   ],
   "note": "All sequences, all chunkings. If the connection breaks within raw data, the rest is accepted as whole (cut_data_accepted, F32)."
  },
  {
   "property": "C35",
   "status": "partial",
   "theorems": [
    "Verif.C35.roundtrip_partial",
    "Verif.C35.all_read",
    "Verif.C35.skipped_file_fails",
    "Verif.C35.close_after_error"
   ],
   "note": "All iterators, message limits and read sizes, if the files are read to the end or small; skipping a file of more than two blocks raises TypeError (F33)."
  },
  {
   "property": "C36",
   "status": "proved",
   "theorems": [
    "Verif.C36.output_exact",
    "Verif.C36.error_not_hidden",
    "Verif.C36.input_closed_once",
    "Verif.C36.likeFile_full"
   ],
   "note": "librsync's jobs are parameters with a contract (Streams)."
  },
  {
   "property": "C37",
   "status": "proved",
   "theorems": [
    "Verif.C37.digest_of_delivered",
    "Verif.C37.nested_digest",
    "Verif.C37.computed_digest"
   ],
   "note": ""
  },
  {
   "property": "C50",
   "status": "proved",
   "theorems": [
    "Verif.C50.copy_exact",
    "Verif.C50.cmp_exact",
    "Verif.C50.update_exact"
   ],
   "note": "librsync is a parameter: that patching with the delta gives the new file is assumed of it."
  },
  {
   "property": "C51",
   "status": "proved",
   "theorems": [
    "Verif.C51.blocksize_range"
   ],
   "note": ""
  },
  {
   "property": "C49",
   "status": "proved",
   "theorems": [
    "Verif.C49.never_fails",
    "Verif.C49.exhausted_only_at_256",
    "Verif.C49.right_result",
    "Verif.C49.no_deadlock",
    "Verif.C49.terminates",
    "Verif.C49.returns",
    "Verif.C49.deep_exhausted"
   ],
   "note": "All programs, all interleavings of the two sides, all choices of request numbers."
  },
  {
   "property": "C38",
   "status": "proved",
   "theorems": [
    "Verif.C38.verify_exact"
   ],
   "note": "That what is restored is what was saved is C01."
  },
  {
   "property": "C39",
   "status": "partial",
   "theorems": [
    "Verif.C39.compare_meta",
    "Verif.C39.compare_hash_partial",
    "Verif.C39.compare_full_partial",
    "Verif.C39.full_excluded_fails",
    "Verif.C39.full_no_root_fails",
    "Verif.C39.hash_of_link_missed"
   ],
   "note": "Method meta in full; hash and full except for findings F35, F36, F37, for which the code is wrong (witnesses)."
  },
  {
   "property": "C40",
   "status": "proved",
   "theorems": [
    "Verif.C40.changed_since"
   ],
   "note": ""
  },
  {
   "property": "C41",
   "status": "proved",
   "theorems": [
    "Verif.SStats.totals_are_sums",
    "Verif.SStats.balance",
    "Verif.SStats.balance_fails_without_signature",
    "Verif.SStats.failed_not_counted",
    "Verif.SStats.stats_read_back",
    "Verif.SStats.session_file",
    "Verif.SStats.big_sizes_change",
    "Verif.SStats.average",
    "Verif.Repo.session_statistics",
    "Verif.Repo.first_statistics",
    "Verif.Repo.statistics_complete"
   ],
   "note": "All event sequences; connected with the sessions of the repository model; file format with exact decimal values, whole numbers up to 2^53."
  },
  {
   "property": "C42",
   "status": "partial",
   "theorems": [
    "Verif.C42.names_never_reused_partial",
    "Verif.C42.not_of_existing_file",
    "Verif.C42.no_file_with_name",
    "Verif.C42.name_reused_after_crash",
    "Verif.C42.increments_mixed_after_crash",
    "Verif.C42.stuck_after_crash",
    "Verif.C42.names_stable",
    "Verif.C42.session_names_distinct",
    "Verif.C42.history_names_distinct_partial"
   ],
   "note": "All sequences of allocations, restarts, changes of the directory and crashes, except crashes between deletion and rewriting of next_free, for which the claim is false (F41, F42; witnesses)."
  },
  {
   "property": "C43",
   "status": "proved",
   "theorems": [
    "Verif.C43.all_restored",
    "Verif.C43.readable_and_restored",
    "Verif.C43.backwards_fails"
   ],
   "note": "all_restored: any calls in any order. readable_and_restored: files in order, as in a restore: nothing fails and everything is readable when needed. If the restore is aborted by an exception the clean-up is not run."
  },
  {
   "property": "C45",
   "status": "partial",
   "theorems": [
    "Verif.C45.split_at_first",
    "Verif.C45.parse_location",
    "Verif.C45.roundtrip_partial",
    "Verif.C45.local_roundtrip",
    "Verif.C45.local_roundtrip_partial",
    "Verif.C45.too_many_refused",
    "Verif.C45.host_backslash_lost",
    "Verif.C45.host_taken_for_path",
    "Verif.C45.backslash_not_parsed",
    "Verif.C45.manual_example"
   ],
   "note": "The splitting is exact for all strings (split_at_first); the round trip except hosts ending in two backslashes and paths with backslashes, for which it is false (F44-F46, witnesses)."
  },
  {
   "property": "C46",
   "status": "partial",
   "theorems": [
    "Verif.C46.data_directory",
    "Verif.C46.module_known",
    "Verif.C46.readonly_refuses",
    "Verif.C46.updateonly_refuses",
    "Verif.C46.minimal_refuses",
    "Verif.C46.server_flag",
    "Verif.C46.within_accepted",
    "Verif.C46.mode_sufficient",
    "Verif.C46.connecting_accepted",
    "Verif.C46.paths_within_partial",
    "Verif.C46.run_within_partial",
    "Verif.C46.run_level",
    "Verif.C46.run_modes",
    "Verif.C46.client_level",
    "Verif.C46.add_error_refused",
    "Verif.C46.get_statistics_refused",
    "Verif.C46.rpath_data_unrestricted",
    "Verif.C46.absolute_index_escapes",
    "Verif.C46.enclosing_repository_escapes",
    "Verif.C46.current_directory_refused"
   ],
   "note": "The lists of functions per mode in full, and paths of file requests for all request sequences. The claim about paths is false as it stands: findings F48-F51 (witnesses); indices in iterators and symlinks are not modelled."
  },
  {
   "property": "C44",
   "status": "partial",
   "theorems": [
    "Verif.C44.restore_into_partial",
    "Verif.C44.restore_into",
    "Verif.C44.restore_into_honest",
    "Verif.C44.kept_without_digest",
    "Verif.C44.restore_at_partial",
    "Verif.C44.restore_at",
    "Verif.C44.absent_deletes",
    "Verif.C44.nothing_refused",
    "Verif.C44.unforced_refused",
    "Verif.C44.unforced_allowed",
    "Verif.C44.stopped_outside",
    "Verif.C44.stopped_again",
    "Verif.C44.Demo.absent_file",
    "Verif.C44.Demo.file_overwritten"
   ],
   "note": "All repositories reached, all targets (missing, files, directories), all times and paths restored (directories, files, paths which aren't in the backup), all points of interruption. Files without recorded digest and with equal attributes and size are left as they are (F52, witness); absent paths delete the target (F69), files are overwritten without --force (F70). Hard links: C66; selections: C64."
  },
  {
   "property": "C52",
   "status": "partial",
   "theorems": [
    "Verif.C52.removed_from_all_backups",
    "Verif.C52.remove_command",
    "Verif.C52.nothing_left",
    "Verif.C52.interrupted_removal",
    "Verif.C52.metadata_text",
    "Verif.C52.attributes_text",
    "Verif.C52.statistics_text_partial",
    "Verif.C52.statistics_blank",
    "Verif.C52.interrupted_removal_wrong_version"
   ],
   "note": "Repository level in full, for all histories and interruptions; texts of metadata and attribute files in full. File statistics: only if no names differ by a blank (F54, witness). What an interruption leaves of the removed file itself may restore wrongly (F53, witness)."
  },
  {
   "property": "C53",
   "status": "partial",
   "theorems": [
    "Verif.C53.ea_restored_partial",
    "Verif.C53.ea_names",
    "Verif.C53.ea_kept_iff",
    "Verif.C53.ea_record_lost",
    "Verif.C53.ea_written",
    "Verif.C53.acl_blanks",
    "Verif.C53.ea_file_to_file",
    "Verif.C53.acl_restored",
    "Verif.C53.acl_equal",
    "Verif.C53.acl_on_system",
    "Verif.C53.acl_on_mirror",
    "Verif.C53.acl_same_system",
    "Verif.C53.good_of_file",
    "Verif.C53.numeric_name_lost",
    "Verif.C53.hash_name_lost",
    "Verif.C53.no_file",
    "Verif.C53.record_without_path"
   ],
   "note": "ACLs in full for names which are no numbers and contain no colon, hash or newline (F56 for the others, witnesses). Attributes: in full for plain names; names with special characters come back quoted (F55: ea_kept_iff says exactly which are kept)."
  },
  {
   "property": "C54",
   "status": "proved",
   "theorems": [
    "Verif.C54.bounded_same",
    "Verif.C54.local_same",
    "Verif.C54.remote_same",
    "Verif.C54.remote_margin",
    "Verif.C54.remote_restores",
    "Verif.C54.cache_holds",
    "Verif.C54.source_found",
    "Verif.C54.late_fails",
    "Verif.C54.late_stale"
   ],
   "note": "For all repositories, sessions, cache sizes, interleavings and block sizes. Hard links and the list of changed directory permissions are not modelled; an attached file is sent as one element with its signature."
  },
  {
   "property": "C55",
   "status": "partial",
   "theorems": [
    "Verif.C55.force_undoes",
    "Verif.C55.backup_then_force",
    "Verif.C55.force_refused",
    "Verif.C55.unforced_unchanged",
    "Verif.C55.force_interrupted_partial",
    "Verif.C55.force_many",
    "Verif.C55.force_stuck"
   ],
   "note": "All histories. An interrupted forced regress is only noticed while there is something in `increments` (hypothesis of force_interrupted_partial; F58, witness force_stuck); a forced regress in such an unnoticed state is not modelled."
  },
  {
   "property": "C56",
   "status": "proved",
   "theorems": [
    "Verif.C56.first_into_any",
    "Verif.C56.first_exact",
    "Verif.C56.first_restarted",
    "Verif.C56.first_locked",
    "Verif.C56.first_not_restored",
    "Verif.C56.complete_kept",
    "Verif.C56.create_keeps_mirror"
   ],
   "note": "All directories, interruption points and numbers of attempts. Assumed of what is found in the directory: a file which differs from the source differs in size, attributes or SHA1 (as everywhere). Not modelled: the number of error logs, and that a non-empty directory without data directory needs --force (F59)."
  },
  {
   "property": "C57",
   "status": "partial",
   "theorems": [
    "Verif.C57.lookup_exact",
    "Verif.C57.lookup_ends",
    "Verif.C57.restore_through_cache",
    "Verif.C57.search_never_ends",
    "Verif.C57.restore_hangs",
    "Verif.C57.Demo.restore_all_never_ends"
   ],
   "note": "Proved as stated for all directories and requests; partial because the code does not fulfil it for lost files: exactly then the search never ends (F60). Long names: C42; permissions: C43."
  },
  {
   "property": "C58",
   "status": "partial",
   "theorems": [
    "Verif.C58.verify_complete",
    "Verif.C58.verify_exact",
    "Verif.C58.verify_sound",
    "Verif.C58.Demo.interrupted_false_alarm"
   ],
   "note": "Proved for repositories with complete backups and, for damaged ones, whenever verify ends (see C57). Fails in interrupted repositories, which verify does not notice (F61, witness). Hard links: C38; differences which librsync refuses are not modelled."
  },
  {
   "property": "C59",
   "status": "proved",
   "theorems": [
    "Verif.C59.compare_meta",
    "Verif.C59.compare_hash",
    "Verif.C59.compare_full",
    "Verif.C59.nothing_after_backup"
   ],
   "note": "For complete repositories; the path given must exist in the backup for the full method. Hard links and selections: C39, C40."
  },
  {
   "property": "C60",
   "status": "proved",
   "theorems": [
    "Verif.C60.files_at",
    "Verif.C60.changed_since",
    "Verif.C60.changed_since_exact",
    "Verif.C60.changed_since_last"
   ],
   "note": "All complete repositories. Without hard links and selections. Files without digest: exactly what changed_since says (example: a file with the same data may then be reported)."
  },
  {
   "property": "C61",
   "status": "proved",
   "theorems": [
    "Verif.C61.increments",
    "Verif.C61.session_directory",
    "Verif.C61.session_file",
    "Verif.C61.Demo.not_all_listed"
   ],
   "note": "All complete repositories and paths. Backups followed by an unchanged one are not listed (F64, witness). The printed names and times are not modelled."
  },
  {
   "property": "C62",
   "status": "proved",
   "theorems": [
    "Verif.C62.sizes_exact",
    "Verif.C62.after_removal",
    "Verif.C62.times_before",
    "Verif.C62.sizes",
    "Verif.C62.Demo.gone_path_fails"
   ],
   "note": "sizes_exact and after_removal hold for every state of the repository whose increments are older than the mirror. For a path which is only in older backups the code raises KeyError (F63, witness)."
  },
  {
   "property": "C63",
   "status": "partial",
   "theorems": [
    "Verif.C63.increment_found",
    "Verif.C63.root_increment_found",
    "Verif.C63.path_found",
    "Verif.C63.network_share",
    "Verif.C63.path_sound",
    "Verif.C63.time_rule",
    "Verif.C63.by_increment",
    "Verif.C63.by_number",
    "Verif.C63.by_path",
    "Verif.C63.lookalike_refused",
    "Verif.C63.increments_above",
    "Verif.C63.Demo.nested",
    "Verif.C63.Demo.wrong_repository",
    "Verif.C63.Demo.quoted_time"
   ],
   "note": "Proved for every repository whose own path has no directory called increments or rdiff-backup-data, and names of increments in readable time zones (F1), as they are without quoting. Where the code is wrong: paths which look like increments (F65, refused), a directory increments above the repository (F66, refused, or the wrong repository), mirrored repositories (F67), increments by their quoted names (F68)."
  },
  {
   "property": "C64",
   "status": "partial",
   "theorems": [
    "Verif.C64.excluded_kept_partial",
    "Verif.C64.selected_restored_partial",
    "Verif.C64.blocked",
    "Verif.C64.excluded_paths",
    "Verif.C64.restore_paths_partial",
    "Verif.C64.subpath_refused",
    "Verif.C64.subpath_allowed",
    "Verif.C64.Demo.midway",
    "Verif.C64.Demo.large_overwritten",
    "Verif.C64.Demo.regexp_inside",
    "Verif.C64.Demo.nothing_matches"
   ],
   "note": "Proved as stated, for conditions which exclude by path together with all below. Partial: files which only look the same as the backed up one and have no digest are kept (as C44, F52); what is wrong with the others is shown by witnesses (F71-F74); hard links, --sub-path with other conditions and the exceptions of file lists (Plain, C26) are left out."
  },
  {
   "property": "C65",
   "status": "partial",
   "theorems": [
    "Verif.C65.earlier_backups_stay",
    "Verif.C65.next_backup_partial",
    "Verif.C65.all_backups_partial",
    "Verif.C65.errors_have_causes_partial",
    "Verif.C65.first_link_fails",
    "Verif.C65.wrong_digest",
    "Verif.C65.no_reason"
   ],
   "note": "Earlier backups: in full. The new backup: in full after histories in which no errors occurred with hard-linked files, and for paths whose first link does not fail now; otherwise the claim is false: F75, F76 (old contents recorded as new ones, without an error), F79 (an error without cause), shown by witnesses. Paths are files in directories which stay; a directory replaced by a link fails (F77)."
  },
  {
   "property": "C66",
   "status": "partial",
   "theorems": [
    "Verif.C66.restored_files",
    "Verif.C66.kept_looks_the_same",
    "Verif.C66.restored_links_partial",
    "Verif.C66.restored_to_new_directory",
    "Verif.C66.link_lost"
   ],
   "note": "For any listing of the target. In full for new targets. Partial: links among paths which are left as they are can be lost, witness F80. Repositories as in C65; a directory at the place of a link fails (F78)."
  },
  {
   "property": "C67",
   "status": "partial",
   "theorems": [
    "Verif.C67.one_quoting",
    "Verif.C67.read_as_written",
    "Verif.C67.compare_same",
    "Verif.C67.compare_refused",
    "Verif.C67.compare_impossible",
    "Verif.C67.option_honoured",
    "Verif.C67.distinct_files",
    "Verif.C67.names_usable_partial",
    "Verif.C67.first_backup_names_partial",
    "Verif.C67.names_read_back_partial",
    "Verif.C67.other_letters",
    "Verif.C67.escapes_not_added",
    "Verif.C67.escapes_alone",
    "Verif.C67.sensitivity_found",
    "Verif.C67.option_not_checked"
   ],
   "note": "One quoting and distinct files in full for ASCII letters (others: F81, witness). Usable names: except special escapes needed later or without characters to quote, where the code is wrong (F82, F83, witnesses). Other actions with --chars-to-quote: F85. compare is refused for repositories on file systems like those of Windows (F102, compare_impossible)."
  },
  {
   "property": "C68",
   "status": "partial",
   "theorems": [
    "Verif.C68.file_exact",
    "Verif.C68.tree_exact",
    "Verif.C68.sum_exact",
    "Verif.C68.bounds",
    "Verif.C68.none_missed",
    "Verif.C68.largest_exact",
    "Verif.C68.one_session",
    "Verif.C68.rest_small",
    "Verif.C68.percentages_defined",
    "Verif.C68.statistics_exact",
    "Verif.C68.never_fails",
    "Verif.C68.hash_ignored",
    "Verif.C68.cutoff_wrong",
    "Verif.C68.chosen_exact"
   ],
   "note": "Lines through any buffers, trees, sums over sessions, the choice of sessions by time and the list of largest directories are exact. Partial because the program doesn't have two parts of the property, both shown: names beginning with # are ignored when read (hash_ignored), and the cut-off of changed files counts new files twice and no deleted files (cutoff_wrong). Not modelled: compression, rounding of floating point numbers."
  },
  {
   "property": "C69",
   "status": "partial",
   "theorems": [
    "Verif.C69.lost_only",
    "Verif.C69.nothing_lost",
    "Verif.C69.repository_kept",
    "Verif.C69.new_only",
    "Verif.C69.readers_change_nothing",
    "Verif.C69.restore_target",
    "Verif.C69.refused",
    "Verif.C69.prepared",
    "Verif.C69.goes_ahead",
    "Verif.C69.first_failed",
    "Verif.C69.running_refused",
    "Verif.C69.interrupted_refused",
    "Verif.C69.deleted_without_force",
    "Verif.C69.user_directory_deleted",
    "Verif.C69.increments_deleted"
   ],
   "note": "Proved with the one exception which the code makes: a data directory which looks like that of a failed first backup is deleted without --force (F88: a directory of the user; F89: by removals and regressions, even dry runs, with all increments). Permissions, and the probing of the file system's abilities and log files after the locking, aren't modelled."
  },
  {
   "property": "C70",
   "status": "partial",
   "theorems": [
    "Verif.C70.status_told",
    "Verif.C70.acts_only_ready",
    "Verif.C70.verify_exact",
    "Verif.C70.compare_exact",
    "Verif.C70.error_iff_not_done",
    "Verif.C70.zero_means_done",
    "Verif.C70.possible_done",
    "Verif.C70.nothing_found",
    "Verif.C70.warnings_exact",
    "Verif.C70.test_exact",
    "Verif.C70.file_errors_not_told",
    "Verif.C70.failed_backup_zero",
    "Verif.C70.compare_without_time",
    "Verif.C70.calculate_unchecked"
   ],
   "note": "Proved but for file errors of backups, restores and regressions, which the program never tells (F91, proved for all worlds). The steps are answers of the environment here; what they do is in the other claims. Messages aren't modelled."
  },
  {
   "property": "C71",
   "status": "partial",
   "theorems": [
    "Verif.C71.confined",
    "Verif.C71.confined_record",
    "Verif.C71.sizes_irrelevant",
    "Verif.C71.no_exception",
    "Verif.C71.truncated",
    "Verif.C71.restricted",
    "Verif.C71.confined_ea",
    "Verif.C71.first_record",
    "Verif.C71.empty_name",
    "Verif.C71.truncated_name",
    "Verif.C71.restricted_lost"
   ],
   "note": "Any bytes between any records, any read sizes: all records but the direct neighbours of the damage are read unchanged; if the damaged part begins with the first line of a record and ends with a newline also these. Any truncation. The same for extended attributes. Partial as the code isn't so in general: a damaged beginning of the first record, or a lost name, ends the reading with an uncaught exception (first_record, empty_name), a record before a cut name gets that name (truncated_name), and a restricted reading may find nothing (restricted_lost)."
  },
  {
   "property": "C72",
   "status": "partial",
   "theorems": [
    "Verif.C72.main_current",
    "Verif.C72.file_iff",
    "Verif.C72.recorded_current",
    "Verif.C72.recorded_any_partial",
    "Verif.C72.recorded_any",
    "Verif.C72.change_lost",
    "Verif.C72.unchanged_iff",
    "Verif.C72.restored",
    "Verif.C72.backed_up_and_restored",
    "Verif.C72.never_drop",
    "Verif.C72.single_off",
    "Verif.C72.compare_blind",
    "Verif.C72.compare_other",
    "Verif.C72.links_kept",
    "Verif.C72.links_lost"
   ],
   "note": "Proved in full where both file systems support the attributes. Partial because the program doesn't have some parts, shown: changes of attributes only are never recorded if the repository's file system doesn't support them (change_lost); everything is taken for changed in a local backup if only the repository's does (unchanged_iff); compare doesn't see attributes (compare_blind); the action regress drops all records about links (links_lost). Failing updates aren't part of this model."
  },
  {
   "property": "C73",
   "status": "partial",
   "theorems": [
    "Verif.C73.one_version",
    "Verif.C73.explicit_version",
    "Verif.C73.one_server",
    "Verif.C73.order_matters",
    "Verif.C73.old_server",
    "Verif.C73.one_value",
    "Verif.C73.agree",
    "Verif.C73.all_reach",
    "Verif.C73.late_connection"
   ],
   "note": "Proved as stated. Partial because with several servers and without the option a session may be refused although a version exists which all know (order_matters, F103); old_server (F104) needs other API versions than those of this program. Settings: servers set something only after all connections were made, as the code does; late_connection shows that this is needed."
  },
  {
   "property": "C74",
   "status": "partial",
   "theorems": [
    "Verif.C74.command_exact",
    "Verif.C74.accepted",
    "Verif.C74.only_placeholders_partial",
    "Verif.C74.not_only_placeholders",
    "Verif.C74.single_brace",
    "Verif.C74.doubled_refused",
    "Verif.C74.user_command",
    "Verif.C74.default_command",
    "Verif.C74.tempdir_braces",
    "Verif.C74.pairs"
   ],
   "note": "Partial because the program doesn't have some parts, shown: the check can be passed by three opening braces or by a field within a field (not_only_placeholders), single braces end in a traceback (single_brace), {{h}} is refused (doubled_refused), the temporary directory becomes part of the schema (tempdir_braces)."
  },
  {
   "property": "C75",
   "status": "partial",
   "theorems": [
    "Verif.C75.like",
    "Verif.C75.chmod_list",
    "Verif.C75.copied",
    "Verif.C75.copy_exact",
    "Verif.C75.copy_none",
    "Verif.C75.increment_attributes",
    "Verif.C75.renamed",
    "Verif.C75.rename_works",
    "Verif.C75.rename_absent",
    "Verif.C75.fallback",
    "Verif.C75.fallback_loses",
    "Verif.C75.number_only"
   ],
   "note": "Proved for files whose inode numbers tell them apart. Partial because the program doesn't have some parts, shown: where symbolic links and fifos can't be renamed their owner and permissions are lost (fallback_loses), and devices are not compared with the inode numbers (number_only). Errors of system calls are not modelled, but for devices which can't be made and lists which can't be applied."
  },
  {
   "property": "C76",
   "status": "partial",
   "theorems": [
    "Verif.C76.private_partial",
    "Verif.C76.everyone",
    "Verif.C76.owning_group",
    "Verif.C76.new_group"
   ],
   "note": "Proved for new files without access control lists, if extended attributes aren't written. The program doesn't have it otherwise: everyone may read and write a file while its extended attributes are written (everyone), the owning group has the permissions of the mask before the list is written (owning_group), and a new group has the old permissions (new_group)."
  },
  {
   "property": "C77",
   "status": "proved",
   "theorems": [
    "Verif.C77.data_directory",
    "Verif.C77.in_order",
    "Verif.C77.last_includes",
    "Verif.C77.elsewhere_refused",
    "Verif.C77.lines_render",
    "Verif.C77.filelist_exact",
    "Verif.C77.globlist_as_options",
    "Verif.C77.relative",
    "Verif.C77.below",
    "Verif.C77.only_these",
    "Verif.C77.all_but_these",
    "Verif.C77.only_these_iterated",
    "Verif.C77.all_but_these_iterated",
    "Verif.C77.option_means",
    "Verif.C77.bad_size",
    "Verif.C77.filelist_option",
    "Verif.C77.wildcard",
    "Verif.C77.relative_as_absolute"
   ],
   "note": "Python's int() and re.compile are parameters. What the patterns with wildcards match is C29/C30, what conditions decide C26. Shown besides: absolute and relative paths are not told apart (F114)."
  },
  {
   "property": "C78",
   "status": "partial",
   "theorems": [
    "Verif.C78.one_failure_partial",
    "Verif.C78.any_failures_partial",
    "Verif.C78.touch_failure",
    "Verif.C78.regress_done",
    "Verif.C78.backup_done",
    "Verif.C78.not_flushed",
    "Verif.C78.written_directly",
    "Verif.C78.no_hash",
    "Verif.C78.killed_then_failure"
   ],
   "note": "One path which is no directory. The full claim is false of the code; counterexamples: the new file is renamed without its data being synchronised (not_flushed, F115), the regress writes a file which is gone directly and without synchronising (written_directly, F116), attributes are set after synchronising (no_hash, F117), a killed regress followed by another and a power failure (killed_then_failure, F118). Proved: one failure, for file systems which write data before a rename; any number of failures, for regular files which stay regular and have a hash and for all other types."
  },
  {
   "property": "C79",
   "status": "partial",
   "theorems": [
    "Verif.C79.backup_failure",
    "Verif.C79.regress_failure",
    "Verif.C79.backup_done",
    "Verif.C79.regress_done",
    "Verif.C79.complete_read",
    "Verif.C79.interrupted_read",
    "Verif.C79.any_failures",
    "Verif.C79.first_backup_lost",
    "Verif.C79.complete_then_undone",
    "Verif.C79.killed_then_failure"
   ],
   "note": "Proved for all histories of sessions after the first backup, each of which starts when the writes of the one before have reached the disk. The rest of the claim is false of the code; counterexamples: the first backup (first_backup_lost, F119), a backup reported as complete which is undone (complete_then_undone, F120), a killed regress followed by another and a power failure (killed_then_failure, F118)."
  },
  {
   "property": "C80",
   "status": "partial",
   "theorems": [
    "Verif.C80.long_names_restored_partial",
    "Verif.C80.backups_succeed",
    "Verif.C80.restore_wrong",
    "Verif.C80.restore_fails"
   ],
   "note": "Proved while what fits doesn't get worse from one backup to the next. It does when the repository is used under a longer path or copied to a file system with shorter names; then the claim is false of the code: restore_wrong (F121: other data are restored, silently), restore_fails (F122: exception)."
  },
  {
   "property": "C81",
   "status": "partial",
   "theorems": [
    "Verif.C81.restored",
    "Verif.C81.backed_up_partial",
    "Verif.C81.only_files_lost",
    "Verif.C81.name_free",
    "Verif.C81.file_lost"
   ],
   "note": "Restoring: in full. Backing up: if no new file has a name that starts with rdiff-backup.tmp.; such a file is deleted from the mirror by the final clean-up when its name is the next for a temporary file (file_lost, F123), and nothing else can be lost (only_files_lost). Not modelled: attributes, hard links, increments, failing operations."
  },
  {
   "property": "C82",
   "status": "proved",
   "theorems": [
    "Verif.C82.restored",
    "Verif.C82.compressed_as_told"
   ],
   "note": "Names and bytes of all increments; gzip and librsync are assumed to give back what they were given (Codec.Lawful). Times are written in time zones in which they are read back (Readable: not those of F1). One directory of files; no attributes, failures or too long names (C80)."
  },
  {
   "property": "C83",
   "status": "partial",
   "theorems": [
    "Verif.C83.metadata_read_back",
    "Verif.C83.statistics_read_back",
    "Verif.C83.removed_read_back",
    "Verif.C83.recreated_partial",
    "Verif.C83.recreated_unreadable"
   ],
   "note": "Full for metadata, statistics and removing. Recreated metadata: if compression is on; with --no-compression they can't be read any more, since the name always ends in .gz (recreated_unreadable, F124)."
  },
  {
   "property": "C84",
   "status": "partial",
   "theorems": [
    "Verif.C84.backup_log",
    "Verif.C84.error_log",
    "Verif.C84.shown_partial",
    "Verif.C84.shown_alone_partial",
    "Verif.C84.server_quiet",
    "Verif.C84.told_apart",
    "Verif.C84.screen_words",
    "Verif.C84.screen_exact",
    "Verif.C84.printed_as_is",
    "Verif.C84.folded",
    "Verif.C84.single_log_empty",
    "Verif.C84.single_log_misses",
    "Verif.C84.exception_not_shown",
    "Verif.C84.verbosity_set",
    "Verif.C84.verbosity_refused",
    "Verif.C84.same_verbosity",
    "Verif.C84.backup_log_set"
   ],
   "note": "Full for the log and the error log of a backup and for the quiet server. Terminals: without exceptions kept out of the log whose level equals the verbosity (exception_not_shown, F126); the logs of regress and remove remain empty (single_log_empty, F125)."
  },
  {
   "property": "C85",
   "status": "partial",
   "theorems": [
    "Verif.C85.walk_partial",
    "Verif.C85.nothing_fails_partial",
    "Verif.C85.errors_exact_partial",
    "Verif.C85.others_unaffected_partial",
    "Verif.C85.nothing_added_partial",
    "Verif.C85.missing_reported_partial",
    "Verif.C85.unlistable_is_empty"
   ],
   "note": "For all selections but those of findings F18 and F19 (C26.Plain), as C27. A directory which can't be listed, even the root, counts as an empty one, so that the backup removes its content from the mirror (F127)."
  },
  {
   "property": "C86",
   "status": "partial",
   "theorems": [
    "Verif.C86.proposed_partial",
    "Verif.C86.value_proposed_partial",
    "Verif.C86.action_proposed",
    "Verif.C86.before_action_partial",
    "Verif.C86.refused",
    "Verif.C86.from_the_end",
    "Verif.C86.program_name",
    "Verif.C86.not_unique_crashes",
    "Verif.C86.before_subaction_crashes",
    "Verif.C86.untyped_value",
    "Verif.C86.value_as_action"
   ],
   "note": "Without --no-unique, which always fails (not_unique_crashes, F128), for options whose values are typed (untyped_value, F130), values which aren't called like actions (value_as_action), no sub-action behind the cursor (before_subaction_crashes, F129)."
  },
  {
   "property": "C87",
   "status": "partial",
   "theorems": [
    "Verif.C87.size_close",
    "Verif.C87.small_exact",
    "Verif.C87.size_mono",
    "Verif.C87.duration_exact_partial",
    "Verif.C87.duration_close_partial",
    "Verif.C87.statistics_read_back",
    "Verif.C87.negative_wraps"
   ],
   "note": "Full for sizes. Durations: those which aren't negative; a negative one (the clock was set back during a session) is shown as another, positive one (negative_wraps, F131). Doubles of durations are taken as the fractions they are."
  },
  {
   "property": "C88",
   "status": "partial",
   "theorems": [
    "Verif.C88.readwrite_exact",
    "Verif.C88.readonly_case",
    "Verif.C88.readonly_done",
    "Verif.C88.readonly_devices",
    "Verif.C88.readonly_escapes",
    "Verif.C88.readonly_trailing_partial",
    "Verif.C88.first_backup_partial",
    "Verif.C88.behaves_ofKind",
    "Verif.C88.con_in_source",
    "Verif.C88.dots_and_case",
    "Verif.C88.error_stops"
   ],
   "note": "Full with writing, and for case. Without writing the code is wrong in two cases: a file called con in the source (con_in_source, F132), and dots at the end where case isn't distinguished (dots_and_case, F133); these are excluded in the theorems called _partial. Attributes and hard links: not modelled here (C72)."
  },
  {
   "property": "C89",
   "status": "partial",
   "theorems": [
    "Verif.C89.options_mean",
    "Verif.C89.accepted_iff",
    "Verif.C89.argument_iff",
    "Verif.C89.unreadable_refused",
    "Verif.C89.other_refused",
    "Verif.C89.part_refused",
    "Verif.C89.broken_fail",
    "Verif.C89.stdin_twice"
   ],
   "note": "Proved for all command lines except where the code is wrong: four documented options end in an exception (broken_fail, F135), standard input twice does too (stdin_twice, F136)."
  },
  {
   "property": "C90",
   "status": "partial",
   "theorems": [
    "Verif.C90.warned_within",
    "Verif.C90.warned_iff_partial",
    "Verif.C90.remote_quiet",
    "Verif.C90.told",
    "Verif.C90.root_missed",
    "Verif.C90.current_missed",
    "Verif.C90.up_false_alarm"
   ],
   "note": "Proved where the code is right; it's wrong for the source / (root_missed: for every repository), for . and a mixture of absolute and relative paths (current_missed, F137), and with .. (up_false_alarm). Symbolic links aren't modelled."
  },
  {
   "property": "C91",
   "status": "proved",
   "theorems": [
    "Verif.C91.builtin",
    "Verif.C91.added",
    "Verif.C91.offered",
    "Verif.C91.main_first",
    "Verif.C91.main_needed",
    "Verif.C91.second_main"
   ],
   "note": "Importing a module is taken to succeed and to have no other effect."
  }
 ]
}
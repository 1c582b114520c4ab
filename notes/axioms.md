# Axioms of the theorems in MANIFEST.json

Output of `#print axioms`.

* `Verif.C01.restore_exact`: propext, Classical.choice, Quot.sound
* `Verif.C01.backup_then_restore`: propext, Classical.choice, Quot.sound
* `Verif.C01.backups_restore`: propext, Classical.choice, Quot.sound
* `Verif.C02.restore_newest`: propext, Classical.choice, Quot.sound
* `Verif.C02.restore_oldest`: propext, Classical.choice, Quot.sound
* `Verif.C02.increment_times_exact`: propext, Classical.choice, Quot.sound
* `Verif.C03.older_unchanged`: propext, Classical.choice, Quot.sound
* `Verif.C03.not_later_refused`: propext, Classical.choice, Quot.sound
* `Verif.C04.crash_regress`: propext, Classical.choice, Quot.sound
* `Verif.C04.interrupted_recovers`: propext, Classical.choice, Quot.sound
* `Verif.C04.backup_again`: propext, Classical.choice, Quot.sound
* `Verif.C05.regress_restartable`: propext, Classical.choice, Quot.sound
* `Verif.C05.retried_reach`: propext, Classical.choice, Quot.sound
* `Verif.C06.markers`: propext, Classical.choice, Quot.sound
* `Verif.C06.interrupted_two_markers`: propext, Classical.choice, Quot.sound
* `Verif.C06.complete_one_marker`: propext, Classical.choice, Quot.sound
* `Verif.C06.interrupted_refused`: propext, Classical.choice, Quot.sound
* `Verif.C06.detected_partial`: propext, Classical.choice, Quot.sound
* `Verif.C06.no_false_alarm`: propext, Classical.choice, Quot.sound
* `Verif.C06.not_always_detected`: propext, Classical.choice, Quot.sound
* `Verif.C09.kept_restorable`: propext, Classical.choice, Quot.sound
* `Verif.C09.remove_keeps`: propext, Classical.choice, Quot.sound
* `Verif.C09.older_gone`: propext, Quot.sound
* `Verif.C09.interrupted_removal_leaves_broken_backup`: propext, Classical.choice, Quot.sound
* `Verif.C10.refused_iff`: propext, Quot.sound
* `Verif.C10.nothing_to_remove`: propext, Quot.sound
* `Verif.C10.removed`: propext, Classical.choice, Quot.sound
* `Verif.C10.two_backups_removed_without_force`: propext, Classical.choice, Quot.sound
* `Verif.C10.removal_destroys_interrupted`: propext, Classical.choice, Quot.sound
* `Verif.C07.meta_read_exact`: propext, Classical.choice, Quot.sound
* `Verif.C07.meta_session_succeeds`: propext, Classical.choice, Quot.sound
* `Verif.C07.meta_history_exact`: propext, Classical.choice, Quot.sound
* `Verif.C08.chain_bounded`: propext, Classical.choice, Quot.sound
* `Verif.C11.collate2_outer_join`: propext, Quot.sound
* `Verif.C12.collateIterators_join`: propext, Quot.sound
* `Verif.C12.yieldTuples_isNJoin`: propext, Quot.sound
* `Verif.C12.yieldTuples_index`: propext, Quot.sound
* `Verif.C12.join_unique`: propext
* `Verif.C12.two_streams_agree`: propext, Quot.sound
* `Verif.C13.reducer_nested`: propext, Classical.choice, Quot.sound
* `Verif.C13.reducer_single_file`: propext
* `Verif.C13.nested_starts_eq_finishes`: propext, Quot.sound
* `Verif.C13.out_of_order_refused`: propext, Classical.choice, Quot.sound
* `Verif.C13.leaving_tree_ends_all`: propext, Classical.choice, Quot.sound
* `Verif.C14.fillIn_spec`: propext, Classical.choice, Quot.sound
* `Verif.C15.unquote_quote`: propext
* `Verif.C15.quote_no_newline`: propext
* `Verif.C15.quote_injective`: propext
* `Verif.C15.quote_plain`: propext
* `Verif.C16.unquote_quote`: propext, Classical.choice, Quot.sound
* `Verif.C16.quote_safe`: propext, Classical.choice, Quot.sound
* `Verif.C16.quote_injective`: propext, Classical.choice, Quot.sound
* `Verif.C17.unquote_quote_partial`: propext, Classical.choice, Quot.sound
* `Verif.C17.not_unquote_quote`: propext
* `Verif.C17.quote_injective`: propext, Classical.choice, Quot.sound
* `Verif.C17.quote_avoids`: propext, Classical.choice, Quot.sound
* `Verif.C18.no_trailing`: propext, Classical.choice, Quot.sound
* `Verif.C18.no_dos_device`: propext, Classical.choice, Quot.sound
* `Verif.C18.unquote_quote`: propext, Classical.choice, Quot.sound
* `Verif.C19.roundtrip_partial`: propext, Classical.choice, Quot.sound
* `Verif.C19.genstr_roundtrip_partial`: propext, Classical.choice, Quot.sound
* `Verif.C19.not_roundtrip`: propext, Classical.choice, Quot.sound
* `Verif.C19.not_roundtrip_newfoundland`: propext, Classical.choice, Quot.sound
* `Verif.C19.epoch_refused`: propext, Classical.choice, Quot.sound
* `Verif.C20.interval_exact`: propext, Quot.sound
* `Verif.C20.interval_rejected`: propext, Quot.sound
* `Verif.C20.interval_append`: propext, Quot.sound
* `Verif.C20.genstr_interval`: propext, Classical.choice, Quot.sound
* `Verif.C21.nth_newest`: propext, Classical.choice, Quot.sound
* `Verif.C21.oldest`: propext, Classical.choice, Quot.sound
* `Verif.C22.name_roundtrip_partial`: propext, Classical.choice, Quot.sound
* `Verif.C22.name_injective_partial`: propext, Classical.choice, Quot.sound
* `Verif.C22.name_injective_one_zone`: propext, Classical.choice, Quot.sound
* `Verif.C22.name_roundtrip_no_time`: propext, Classical.choice, Quot.sound
* `Verif.C22.time_lost`: propext, Classical.choice, Quot.sound
* `Verif.C22.lookup_exact`: propext, Classical.choice, Quot.sound
* `Verif.C22.lookalike_listed`: propext, Classical.choice, Quot.sound
* `Verif.C23.roundtrip`: propext, Classical.choice, Quot.sound
* `Verif.C23.attributes_restored`: propext, Classical.choice, Quot.sound
* `Verif.C23.user_None_lost`: propext, Classical.choice, Quot.sound
* `Verif.C23.empty_link_lost`: propext, Classical.choice, Quot.sound
* `Verif.C24.iterate_written`: propext, Classical.choice, Quot.sound
* `Verif.C25.restricted`: propext, Classical.choice, Quot.sound
* `Verif.C47.unchanged_equal`: propext, Classical.choice, Quot.sound
* `Verif.C48.equal_unchanged_partial`: propext, Classical.choice, Quot.sound
* `Verif.C48.fifo_undetected`: propext, Classical.choice, Quot.sound
* `Verif.C26.first_match_wins`: propext, Quot.sound
* `Verif.C26.decision_unique`: propext
* `Verif.C26.rbdir_never_selected`: propext
* `Verif.C26.name_check_sound_partial`: propext, Quot.sound
* `Verif.C26.exclude_other_filesystems_fails`: propext, Quot.sound
* `Verif.C26.included_by_mixed_list_lost`: propext
* `Verif.C27.iterates_selected_partial`: propext, Classical.choice, Quot.sound
* `Verif.C27.decide_is_decision`: propext, Quot.sound
* `Verif.C27.single_file`: propext, Quot.sound
* `Verif.C28.metadata_selection_partial`: propext, Classical.choice, Quot.sound
* `Verif.C28.metadata_selection_same`: propext, Classical.choice, Quot.sound
* `Verif.C28.scanned_file_raises`: propext, Quot.sound
* `Verif.C28.below_excluded_directory`: propext, Quot.sound
* `Verif.C28.empty_scanned_directory`: propext, Quot.sound
* `Verif.C29.history_independent`: propext, Classical.choice, Quot.sound
* `Verif.C29.excluded_iff`: propext, Classical.choice, Quot.sound
* `Verif.C29.included_iff_partial`: propext, Classical.choice, Quot.sound
* `Verif.C29.included_iff_of_separate`: propext, Classical.choice, Quot.sound
* `Verif.C29.listed_included`: propext, Classical.choice, Quot.sound
* `Verif.C29.parent_not_included`: propext, Quot.sound
* `Verif.C30.matches_documented`: propext, Classical.choice, Quot.sound
* `Verif.C30.matches_iff`: propext, Classical.choice, Quot.sound
* `Verif.C30.ignorecase_prefix`: propext
* `Verif.C30.above_scanned_partial`: propext, Classical.choice, Quot.sound
* `Verif.C30.included_file_is_generated_partial`: propext, Classical.choice, Quot.sound
* `Verif.C30.root_scanned`: propext, Classical.choice, Quot.sound
* `Verif.C30.class_matches_slash`: propext, Classical.choice, Quot.sound
* `Verif.C30.escaped_star_cut`: propext, Classical.choice, Quot.sound
* `Verif.C30.newline_at_end`: propext, Classical.choice, Quot.sound
* `Verif.C30.star_matches_absolute`: propext, Classical.choice, Quot.sound
* `Verif.C30.question_matches_byte`: propext, Classical.choice, Quot.sound
* `Verif.C31.linked_to_first`: propext, Classical.choice, Quot.sound
* `Verif.C31.later_is_linked`: propext, Classical.choice, Quot.sound
* `Verif.C31.bookkeeping`: propext, Quot.sound
* `Verif.C31.dropped_with_last`: propext, Classical.choice, Quot.sound
* `Verif.C31.no_keyerror`: propext, Classical.choice, Quot.sound
* `Verif.C31.links_as_in_source_partial`: propext, Classical.choice, Quot.sound
* `Verif.C31.hashes_of_first`: propext, Classical.choice, Quot.sound
* `Verif.C31.old_digest_handed_on`: propext, Quot.sound
* `Verif.C31.not_linked_na`: propext
* `Verif.C31.not_linked_digest`: propext
* `Verif.C32.one_writer`: propext, Quot.sound
* `Verif.C32.no_reader_with_writer`: propext, Quot.sound
* `Verif.C32.one_writer_partial`: propext, Quot.sound
* `Verif.C32.no_reader_with_writer_partial`: propext, Quot.sound
* `Verif.C32.lock_available`: propext, Quot.sound
* `Verif.C32.reader_has_lock`: propext, Quot.sound
* `Verif.C32.two_initial_backups`: propext, Quot.sound
* `Verif.C32.reader_without_lock`: propext, Quot.sound
* `Verif.C32.two_readers`: propext, Quot.sound
* `Verif.C33.mapping_applied`: propext, Classical.choice, Quot.sound
* `Verif.C33.no_mapping`: propext
* `Verif.C33.numerical`: propext
* `Verif.C33.bad_line_refused`: propext, Quot.sound
* `Verif.C33.maps_unique`: propext, Classical.choice, Quot.sound
* `Verif.C33.cache_transparent`: propext, Quot.sound
* `Verif.C33.numerical_option_ignored`: propext, Classical.choice, Quot.sound
* `Verif.C33.numerical_option_wrong`: propext, Classical.choice, Quot.sound
* `Verif.C33.acl_number_dropped`: propext, Classical.choice, Quot.sound
* `Verif.C33.cache_not_transparent`: propext, Classical.choice, Quot.sound
* `Verif.C34.messages_roundtrip`: propext, Quot.sound
* `Verif.C34.quit_received`: propext, Quot.sound
* `Verif.C34.can_send`: propext, Quot.sound
* `Verif.C34.cut_data_accepted`: propext, Quot.sound
* `Verif.C35.roundtrip_partial`: propext, Classical.choice, Quot.sound
* `Verif.C35.all_read`: propext, Classical.choice, Quot.sound
* `Verif.C35.skipped_file_fails`: propext, Quot.sound
* `Verif.C35.close_after_error`: propext, Quot.sound
* `Verif.C36.output_exact`: propext, Classical.choice, Quot.sound
* `Verif.C36.error_not_hidden`: propext, Classical.choice, Quot.sound
* `Verif.C36.input_closed_once`: propext, Quot.sound
* `Verif.C36.likeFile_full`: propext, Classical.choice, Quot.sound
* `Verif.C37.digest_of_delivered`: propext
* `Verif.C37.nested_digest`: propext
* `Verif.C37.computed_digest`: propext, Classical.choice, Quot.sound
* `Verif.C50.copy_exact`: propext, Classical.choice, Quot.sound
* `Verif.C50.cmp_exact`: propext, Classical.choice, Quot.sound
* `Verif.C50.update_exact`: propext, Classical.choice, Quot.sound
* `Verif.C51.blocksize_range`: propext, Classical.choice, Quot.sound
* `Verif.C49.never_fails`: propext, Classical.choice, Quot.sound
* `Verif.C49.exhausted_only_at_256`: propext, Classical.choice, Quot.sound
* `Verif.C49.right_result`: propext, Classical.choice, Quot.sound
* `Verif.C49.no_deadlock`: propext, Classical.choice, Quot.sound
* `Verif.C49.terminates`: propext, Classical.choice, Quot.sound
* `Verif.C49.returns`: propext, Classical.choice, Quot.sound
* `Verif.C49.deep_exhausted`: propext, Classical.choice, Quot.sound
* `Verif.C38.verify_exact`: propext, Classical.choice, Quot.sound
* `Verif.C39.compare_meta`: propext, Classical.choice, Quot.sound
* `Verif.C39.compare_hash_partial`: propext, Classical.choice, Quot.sound
* `Verif.C39.compare_full_partial`: propext, Classical.choice, Quot.sound
* `Verif.C39.full_excluded_fails`: propext, Quot.sound
* `Verif.C39.full_no_root_fails`: propext, Quot.sound
* `Verif.C39.hash_of_link_missed`: propext, Quot.sound
* `Verif.C40.changed_since`: propext, Classical.choice, Quot.sound
* `Verif.SStats.totals_are_sums`: propext, Quot.sound
* `Verif.SStats.balance`: propext, Classical.choice, Quot.sound
* `Verif.SStats.balance_fails_without_signature`: propext
* `Verif.SStats.failed_not_counted`: propext, Quot.sound
* `Verif.SStats.stats_read_back`: propext, Classical.choice, Quot.sound
* `Verif.SStats.session_file`: propext, Classical.choice, Quot.sound
* `Verif.SStats.big_sizes_change`: propext, Classical.choice, Quot.sound
* `Verif.SStats.average`: propext, Classical.choice, Quot.sound
* `Verif.Repo.session_statistics`: propext, Classical.choice, Quot.sound
* `Verif.Repo.first_statistics`: propext, Classical.choice, Quot.sound
* `Verif.Repo.statistics_complete`: propext, Quot.sound
* `Verif.C42.names_never_reused_partial`: propext, Classical.choice, Quot.sound
* `Verif.C42.not_of_existing_file`: propext, Classical.choice, Quot.sound
* `Verif.C42.no_file_with_name`: propext
* `Verif.C42.name_reused_after_crash`: propext
* `Verif.C42.increments_mixed_after_crash`: propext
* `Verif.C42.stuck_after_crash`: propext, Quot.sound
* `Verif.C42.names_stable`: propext
* `Verif.C42.session_names_distinct`: propext, Classical.choice, Quot.sound
* `Verif.C42.history_names_distinct_partial`: propext, Classical.choice, Quot.sound
* `Verif.C43.all_restored`: propext, Classical.choice, Quot.sound
* `Verif.C43.readable_and_restored`: propext, Classical.choice, Quot.sound
* `Verif.C43.backwards_fails`: propext, Classical.choice, Quot.sound
* `Verif.C45.split_at_first`: propext, Quot.sound
* `Verif.C45.parse_location`: propext, Classical.choice, Quot.sound
* `Verif.C45.roundtrip_partial`: propext, Classical.choice, Quot.sound
* `Verif.C45.local_roundtrip`: propext, Classical.choice, Quot.sound
* `Verif.C45.local_roundtrip_partial`: propext, Classical.choice, Quot.sound
* `Verif.C45.too_many_refused`: propext, Quot.sound
* `Verif.C45.host_backslash_lost`: propext, Quot.sound
* `Verif.C45.host_taken_for_path`: propext, Quot.sound
* `Verif.C45.backslash_not_parsed`: propext, Quot.sound
* `Verif.C45.manual_example`: propext, Quot.sound
* `Verif.C46.module_known`: propext, Classical.choice, Quot.sound
* `Verif.C46.readonly_refuses`: propext, Quot.sound
* `Verif.C46.updateonly_refuses`: propext, Quot.sound
* `Verif.C46.minimal_refuses`: propext, Quot.sound
* `Verif.C46.server_flag`: propext, Quot.sound
* `Verif.C46.within_accepted`: propext, Quot.sound
* `Verif.C46.mode_sufficient`: propext, Quot.sound
* `Verif.C46.connecting_accepted`: propext
* `Verif.C46.paths_within_partial`: propext, Quot.sound
* `Verif.C46.run_within_partial`: propext, Classical.choice, Quot.sound
* `Verif.C46.run_level`: propext
* `Verif.C46.run_modes`: propext, Quot.sound
* `Verif.C46.client_level`: propext, Quot.sound
* `Verif.C46.add_error_refused`: propext, Quot.sound
* `Verif.C46.get_statistics_refused`: propext, Quot.sound
* `Verif.C46.rpath_data_unrestricted`: propext
* `Verif.C46.absolute_index_escapes`: propext
* `Verif.C46.enclosing_repository_escapes`: propext
* `Verif.C46.current_directory_refused`: propext, Quot.sound
* `Verif.C44.restore_into_partial`: propext, Classical.choice, Quot.sound
* `Verif.C44.restore_into`: propext, Classical.choice, Quot.sound
* `Verif.C44.restore_into_honest`: propext, Classical.choice, Quot.sound
* `Verif.C44.kept_without_digest`: propext, Classical.choice, Quot.sound

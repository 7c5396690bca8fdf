# Axioms of the theorems named in MANIFEST.json

Written by `tools/gen_axioms.py` from `#print axioms`.

## propext

* C36: Flu.C36_honest
* C50: Flu.C50_lookup
* C55: Flu.C55_any_chunk
* C60: Flu.C60_partial
* C82: Flu.C82_no_change_partial
* C94: Flu.C94_port

## propext, Classical.choice, Quot.sound

* C01: Flu.C01_set_get
* C01: Flu.C01_history_get
* C01: Flu.C01_set_frame
* C01: Flu.history_refines
* C02: Flu.C02_unset_partial
* C02: Flu.C02_unset_clear
* C02: Flu.C02_refuted
* C03: Flu.C03_size_any
* C03: Flu.C03_size
* C03: Flu.C03_monotone
* C04: Flu.C04_count
* C04: Flu.C04_get
* C05: Flu.C05_fill
* C05: Flu.C05_full
* C05: Flu.C05_full_missing
* C07: Flu.C07_roundtrip
* C07: Flu.C07_reachable
* C07: Flu.C07_injective
* C07: Flu.C07_total
* C08: Flu.C08_ranges
* C08: Flu.C08_wraps
* C08: Flu.C08_refuted
* C09: Flu.C09_overlap
* C09: Flu.C09_overlap_reachable
* C09: Flu.C09_odd_panics
* C09: Flu.pairUp_none_iff
* C10: Flu.C10_unfilledRanges
* C10: Flu.C10_empty_iff_full
* C100: Flu.C100_reads
* C100: Flu.C100_writes
* C100: Flu.C100_restart
* C101: Flu.C101_partial
* C101: Flu.C101_stops
* C101: Flu.C101_refuted
* C102: Flu.C102_partial
* C102: Flu.C102_register
* C102: Flu.C102_lost
* C102: Flu.C102_refuted
* C103: Flu.C103_partial
* C103: Flu.C103_exact
* C103: Flu.C103_refuted
* C104: Flu.C104_partial
* C105: Flu.C105_partial
* C106: Flu.C106_reaches
* C106: Flu.C106_collected
* C106: Flu.C106_no_leftover
* C107: Flu.C107_partial
* C107: Flu.C107_exact
* C107: Flu.C107_honest
* C107: Flu.C107_any
* C107: Flu.C107_refuted
* C108: Flu.C108_succeeds
* C108: Flu.C108_again
* C109: Flu.C109_partial
* C109: Flu.C109_starts
* C109: Flu.C109_loses
* C109: Flu.C109_record
* C109: Flu.C109_refuted
* C11: Flu.C11_unfilledItems
* C110: Flu.C110_one_by_one
* C110: Flu.C110_reach
* C110: Flu.C110_both
* C111: Flu.C111_killed
* C111: Flu.C111_one
* C111: Flu.C111_usable
* C111: Flu.C111_every_byte
* C112: Flu.C112_network
* C112: Flu.C112_arrives
* C112: Flu.C112_spreads
* C112: Flu.C112_get
* C113: Flu.C113_dropped
* C113: Flu.C113_returns
* C113: Flu.C113_stops
* C114: Flu.C114_safe
* C114: Flu.C114_hole
* C114: Flu.C114_corrupts
* C115: Flu.C115_refuted
* C115: Flu.C115_network_partial
* C115: Flu.C115_arrives
* C115: Flu.C115_silent
* C115: Flu.C115_passed_on
* C116: Flu.C116_refuted
* C116: Flu.C116_keeps_partial
* C116: Flu.C116_complete
* C117: Flu.C117_same_file
* C118: Flu.C118_leaves
* C118: Flu.C118_sent
* C118: Flu.C118_answers
* C119: Flu.C119_cut
* C119: Flu.C119_every
* C119: Flu.C119_stuck
* C119: Flu.C119_complete
* C119: Flu.C119_get
* C119: Flu.C119_dies
* C119: Flu.C119_never
* C120: Flu.C120_usable_iff
* C120: Flu.C120_forever
* C120: Flu.C120_start
* C120: Flu.C120_register
* C120: Flu.C120_share
* C120: Flu.C120_unshare
* C120: Flu.C120_save
* C120: Flu.C31_partial
* C120: Flu.C31_forever
* C121: Flu.C121_exact
* C121: Flu.C121_partial
* C121: Flu.C121_mixed_up
* C121: Flu.C121_never_existed
* C121: Flu.C121_refuted
* C121: Flu.C121_downloaded
* C121: Flu.C121_finishes
* C122: Flu.C122_hosts
* C122: Flu.C122_any
* C122: Flu.C122_wedged
* C122: Flu.C122_search_iff
* C122: Flu.C122_stopped
* C123: Flu.C123_refuted
* C123: Flu.C123_ends_partial
* C123: Flu.C123_dies
* C123: Flu.C123_host_partial
* C124: Flu.C124_refuted
* C124: Flu.C124_ends_iff_partial
* C124: Flu.C124_disk_partial
* C124: Flu.C124_goes_on_partial
* C124: Flu.C124_peer
* C125: Flu.C125_refuted
* C125: Flu.C125_sound_partial
* C125: Flu.C125_alive_partial
* C125: Flu.C125_dies_iff_partial
* C125: Flu.C125_back
* C125: Flu.C125_restored
* C125: Flu.C125_alone
* C126: Flu.C126_refuted
* C126: Flu.C126_grown
* C126: Flu.C126_cut
* C126: Flu.C126_mixture
* C126: Flu.C126_nothing
* C126: Flu.C126_refilled
* C126: Flu.C126_sent
* C126: Flu.C126_survives
* C126: Flu.C126_dies_iff_partial
* C126: Flu.C126_no_longer_partial
* C126: Flu.C126_saved
* C126: Flu.C126_elsewhere
* C126: Flu.C126_any_network
* C127: Flu.C127_refuted
* C127: Flu.C127_floods
* C127: Flu.C127_unacked_partial
* C127: Flu.C127_once_partial
* C127: Flu.C127_answers
* C128: Flu.C128_causes
* C128: Flu.C128_fatal
* C128: Flu.C128_serves
* C129: Flu.C129_refuted
* C129: Flu.C129_dies
* C129: Flu.C129_window
* C129: Flu.C129_possible
* C129: Flu.C129_partial
* C130: Flu.C130_daemon
* C130: Flu.C130_help
* C130: Flu.C130_usage
* C130: Flu.C130_command
* C130: Flu.C130_alone
* C130: Flu.C130_no
* C131: Flu.C131_exact
* C131: Flu.C131_network
* C131: Flu.C131_daemon
* C132: Flu.C132_status
* C132: Flu.C132_unsent
* C132: Flu.C132_share
* C132: Flu.C132_list
* C132: Flu.C132_get
* C132: Flu.C132_clean
* C132: Flu.C132_chims
* C132: Flu.C132_remote
* C133: Flu.C133_refuted
* C133: Flu.C133_ends_iff_partial
* C133: Flu.C133_disk_partial
* C133: Flu.C133_session_partial
* C134: Flu.C134_one
* C134: Flu.C134_refused
* C134: Flu.C134_first
* C135: Flu.C135_owned
* C135: Flu.C135_empty
* C135: Flu.C135_listed
* C135: Flu.C135_start
* C135: Flu.C135_exact
* C135: Flu.C135_limit
* C136: Flu.C136_share
* C136: Flu.C136_register
* C136: Flu.C136_unshare
* C136: Flu.C136_stays
* C136: Flu.C136_stuck
* C136: Flu.C136_register_possible
* C136: Flu.C136_share_possible
* C136: Flu.C136_unshare_possible
* C137: Flu.C137_opened
* C137: Flu.C137_short
* C137: Flu.C137_finishes
* C138: Flu.C138_register
* C138: Flu.C138_share
* C138: Flu.C138_unshare
* C138: Flu.C138_written
* C138: Flu.C138_unshare_leaves
* C138: Flu.C138_heals
* C138: Flu.C138_permanent
* C139: Flu.C139_exact
* C139: Flu.C139_accepted
* C139: Flu.C139_refused
* C139: Flu.C139_listed
* C139: Flu.C139_starts
* C14: Flu.C14_roundtrip
* C14: Flu.parse_received
* C140: Flu.C140_says
* C140: Flu.C140_stray
* C140: Flu.C140_saved
* C141: Flu.C141_index
* C141: Flu.C141_progress
* C15: Flu.C15_prefix_free
* C15: Flu.C15_injective
* C15: Flu.C15_kind
* C17: Flu.C17_chunks_partial
* C17: Flu.C17_received
* C17: Flu.C17_empty_at_256
* C17: Flu.C17_refuted
* C18: Flu.C18_names
* C19: Flu.C19_roundtrip
* C19: Flu.C19_split
* C19: Flu.C19_size
* C19: Flu.C19_sender
* C20: Flu.C20_panics_iff_partial
* C20: Flu.C20_refuted
* C20: Flu.C20_total
* C21: Flu.C21_roundtrip
* C21: Flu.C21_accepts
* C21: Flu.C21_injective
* C21: Flu.C21_isBlank
* C21: Flu.C21_unchecked
* C22: Flu.C22_sound
* C22: Flu.C22_complete
* C23: Flu.C23_describes
* C23: Flu.C23_reads
* C25: Flu.C25_count
* C25: Flu.C25_partition
* C26: Flu.C26_share
* C27: Flu.C27_own
* C27: Flu.C27_distinct
* C27: Flu.C27_share_again
* C27: Flu.C27_share_again_error
* C27: Flu.C27_register_again
* C28: Flu.C28_unshare
* C28: Flu.C28_unknown
* C29: Flu.C29_register
* C29: Flu.C27_register_again
* C30: Flu.C30_restart
* C30: Flu.C30_same
* C30: Flu.C30_list
* C31: Flu.C31_partial
* C31: Flu.C31_refuted
* C31: Flu.C31_forever
* C31: Flu.C31_register_crash
* C31: Flu.C31_share_crash
* C31: Flu.C31_unshare_crash
* C31: Flu.C31_torn_crash
* C32: Flu.C32_save
* C33: Flu.C33_download
* C33: Flu.C33_start
* C33: Flu.C33_step
* C33: Flu.C33_any_order
* C33: Flu.C33_complete
* C33: Flu.C33_empty
* C34: Flu.C34_complete
* C34: Flu.C34_missing
* C34: Flu.C34_agree
* C34: Flu.C34_total
* C35: Flu.C35_reader
* C35: Flu.C35_serves
* C35: Flu.C35_absent
* C35: Flu.C35_unknown
* C35: Flu.C35_harmless
* C36: Flu.C36_partial
* C36: Flu.C36_anywhere
* C36: Flu.C36_refuted
* C37: Flu.C37_partial
* C37: Flu.C37_refuted
* C37: Flu.C37_panics_iff
* C37: Flu.C37_forever
* C38: Flu.C38_list
* C38: Flu.C38_total
* C39: Flu.C39_clean
* C39: Flu.C39_again
* C39: Flu.C39_total
* C39: Flu.C39_faults
* C40: Flu.C40_order
* C40: Flu.C40_stream
* C41: Flu.C41_window
* C41: Flu.C41_full
* C42: Flu.C42_delivers
* C43: Flu.C43_delivers
* C43: Flu.C43_assembled
* C43: Flu.C43_first_again
* C44: Flu.C44_partial
* C44: Flu.C44_refuted
* C44: Flu.C44_loss
* C45: Flu.C45_partial
* C45: Flu.C45_refuted
* C45: Flu.C45_stalls
* C46: Flu.C46_partial
* C46: Flu.C46_refuted
* C46: Flu.C46_full_chunk
* C47: Flu.C47_partial
* C47: Flu.C47_refuted
* C47: Flu.C41_full
* C48: Flu.C48_new_partial
* C48: Flu.C48_refuted
* C48: Flu.C48_stale
* C48: Flu.C48_serves
* C50: Flu.C50_only_answers
* C50: Flu.C50_listing
* C51: Flu.C51_returns_iff_partial
* C51: Flu.C51_registers_iff
* C51: Flu.C51_wedged
* C51: Flu.C51_refuted
* C52: Flu.C52_reply
* C53: Flu.C53_listing
* C53: Flu.C53_metadata
* C53: Flu.C53_crashes
* C54: Flu.C54_fatal_iff_partial
* C54: Flu.C54_refuted
* C54: Flu.C54_kills
* C56: Flu.C56_single
* C56: Flu.C56_lowest
* C56: Flu.C56_completes
* C56: Flu.C56_race
* C56: Flu.C56_big
* C57: Flu.C57_list
* C60: Flu.C60_survives_iff_partial
* C61: Flu.C61_partial
* C61: Flu.C61_refuted
* C61: Flu.C61_lost
* C62: Flu.C62_sends
* C62: Flu.C62_panics_iff
* C63: Flu.C63_partial
* C63: Flu.C63_refuted
* C64: Flu.C64_partial
* C64: Flu.C64_refuted
* C64: Flu.C64_dies
* C66: Flu.C66_starts
* C66: Flu.C66_refused
* C66: Flu.C66_total
* C66: Flu.C66_no_host
* C66: Flu.C66_no_address
* C66: Flu.C66_as_shared
* C67: Flu.C67_call
* C67: Flu.C67_run
* C68: Flu.C68_partial
* C68: Flu.C68_refuted
* C68: Flu.C68_text
* C68: Flu.C68_healthy
* C69: Flu.C69_partial
* C69: Flu.C69_refuted
* C69: Flu.C69_lost
* C71: Flu.C71_refuted
* C71: Flu.C71_forever
* C72: Flu.C72_saved_chunks_stay_partial
* C72: Flu.C72_since_registered_partial
* C72: Flu.C72_refuted
* C72: Flu.C72_lost
* C72: Flu.C72_never_overstated
* C73: Flu.C73_read_between_calls_partial
* C73: Flu.C73_since_registered_partial
* C73: Flu.C73_read_during_save
* C73: Flu.C73_refuted
* C73: Flu.C73_killed
* C74: Flu.C74_content
* C74: Flu.C74_peers
* C74: Flu.C74_host_to_host
* C74: Flu.C74_shared
* C75: Flu.C75_call
* C75: Flu.C75_clean
* C75: Flu.C75_save
* C76: Flu.C76_partial
* C76: Flu.C76_refuted
* C76: Flu.C76_overwrites
* C77: Flu.C77_partial
* C77: Flu.C77_killed_iff_partial
* C77: Flu.C77_result
* C77: Flu.C77_refuted
* C78: Flu.C78_partial
* C78: Flu.C78_leaks_partial
* C78: Flu.C78_honest
* C78: Flu.C78_refuted
* C80: Flu.C80_rehash
* C80: Flu.C80_works
* C81: Flu.C81_partial
* C81: Flu.C81_share_disk_full
* C81: Flu.C81_refuted
* C83: Flu.C83_someone_moves
* C83: Flu.C83_all_finish
* C84: Flu.C84_recorded
* C84: Flu.C84_same
* C84: Flu.C84_download
* C84: Flu.C84_library
* C84: Flu.C84_model
* C85: Flu.C85_partial
* C85: Flu.C85_honest_partial
* C86: Flu.C86_partial
* C86: Flu.C86_names
* C86: Flu.C86_overwrites
* C86: Flu.C86_refuted
* C87: Flu.C87_partial
* C87: Flu.C87_home
* C87: Flu.C87_daemon_partial
* C87: Flu.C87_general
* C87: Flu.C87_blocks
* C87: Flu.C87_reads_any
* C87: Flu.C87_refuted
* C88: Flu.C88_nothing_changes
* C88: Flu.C88_daemon
* C89: Flu.C89_partial
* C89: Flu.C89_local_partial
* C89: Flu.C89_remote_partial
* C89: Flu.C89_prints
* C89: Flu.C89_forged
* C89: Flu.C89_dies
* C89: Flu.C89_refuted
* C89: Flu.C89_chims
* C89: Flu.C89_chims_prints
* C89: Flu.C89_hosts
* C89: Flu.C89_clean_partial
* C90: Flu.C90_stuck
* C90: Flu.C90_partial
* C90: Flu.C90_refuted
* C91: Flu.C91_shared_partial
* C91: Flu.C91_clean_partial
* C91: Flu.C91_clean_stays_partial
* C91: Flu.C91_lie
* C91: Flu.C91_refuted
* C92: Flu.C92_seen
* C92: Flu.C92_partial
* C92: Flu.C92_collects
* C92: Flu.C92_refuted
* C93: Flu.C93_start
* C93: Flu.C93_homeless
* C93: Flu.C93_dies
* C93: Flu.C93_death
* C93: Flu.C93_never
* C93: Flu.C93_partial
* C93: Flu.C93_refuted
* C94: Flu.C94_lost
* C94: Flu.C94_refuted
* C95: Flu.C95_cut
* C95: Flu.C95_resumes
* C95: Flu.C95_itself
* C95: Flu.C95_renamed
* C96: Flu.C96_partial
* C96: Flu.C96_one_partial
* C96: Flu.C96_forged
* C96: Flu.C96_refuted
* C97: Flu.C97_partial
* C97: Flu.C97_refuted
* C97: Flu.C66_no_address
* C98: Flu.C98_refused
* C98: Flu.C98_partial
* C98: Flu.C98_for_ever
* C98: Flu.C98_exhausts
* C98: Flu.C98_refuted
* C99: Flu.C99_partial
* C99: Flu.C99_download
* C99: Flu.C99_ends
* C99: Flu.C99_refuted

## propext, Quot.sound

* C06: Flu.C06_union_intersect
* C06: Flu.C06_size_lost
* C102: Flu.C102_answers
* C104: Flu.C104_tight
* C104: Flu.C104_no_bound
* C104: Flu.C104_refuted
* C105: Flu.C105_panics
* C105: Flu.C105_refuted
* C11: Flu.C11_negative
* C110: Flu.C110_order
* C113: Flu.C113_success
* C113: Flu.C113_register
* C113: Flu.C113_start
* C12: Flu.C12_program
* C12: Flu.C12_copy_isolated
* C12: Flu.C12_copy_constant
* C123: Flu.C123_steps_partial
* C123: Flu.C123_get_partial
* C126: Flu.C126_ends
* C126: Flu.C126_opens
* C13: Flu.C13_get_total_partial
* C13: Flu.C13_huge_panics
* C13: Flu.C13_refuted
* C131: Flu.C131_all
* C133: Flu.C133_hashless_partial
* C137: Flu.C137_served
* C137: Flu.C137_search
* C16: Flu.C16_total
* C16: Flu.C16_kind
* C16: Flu.C16_panic_occurs
* C19: Flu.C19_parse_panics_iff
* C19: Flu.C19_split_panics_iff
* C21: Flu.C21_fromSlice
* C22: Flu.C22_error
* C23: Flu.C23_complete
* C24: Flu.C24_terminates_partial
* C24: Flu.C24_hangs
* C24: Flu.C24_refuted
* C25: Flu.C25_chunk
* C31: Flu.C31_torn_forever
* C33: Flu.C33_content
* C37: Flu.C37_honest
* C49: Flu.C49_distinct
* C49: Flu.C49_window
* C53: Flu.C53_wrong
* C54: Flu.C54_no_address
* C55: Flu.C55_hosts
* C57: Flu.C57_percent
* C57: Flu.C57_complete
* C57: Flu.C57_empty
* C58: Flu.C58_forms
* C58: Flu.C58_other
* C58: Flu.C58_capacity
* C59: Flu.C59_ack
* C59: Flu.C59_not_ipv4
* C60: Flu.C60_panics_iff
* C60: Flu.C60_refuted
* C62: Flu.C62_ranges
* C65: Flu.C65_localIP
* C70: Flu.C70_one
* C70: Flu.C70_every_host
* C70: Flu.C70_progress
* C70: Flu.C70_daemon
* C71: Flu.C71_partial
* C71: Flu.C71_blocks
* C75: Flu.C75_start
* C78: Flu.C78_rests
* C79: Flu.C79_answers
* C79: Flu.C79_after
* C82: Flu.C82_partial
* C82: Flu.C82_refuted
* C82: Flu.C82_exactly
* C82: Flu.C82_uploads
* C82: Flu.C82_index
* C82: Flu.C82_peers_alone
* C82: Flu.C82_local_partial
* C83: Flu.C83_no_circle
* C85: Flu.C85_refuted
* C85: Flu.C85_wrong_bytes
* C88: Flu.C88_reachable
* C88: Flu.C88_answers
* C94: Flu.C94_partial
* C94: Flu.C94_second
* C94: Flu.C94_harm
* C94: Flu.C94_lasts
* C94: Flu.C94_alone_partial
* C97: Flu.C97_ends
* C97: Flu.C97_search
* C97: Flu.C97_other
* C98: Flu.C98_kept
* C99: Flu.C99_upload

c("C01", "proved", "C01_set_get C01_history_get C01_set_frame history_refines",
  "Indices below 2^63-1 (Go int). Set-only histories, mixed legal histories, and the frame property for arbitrary bitset values.")
c("C02", "partial", "C02_unset_partial C02_unset_clear C02_refuted",
  "The full statement C02_statement is false of the code and refuted; true for set or far out-of-bounds indices; otherwise Unset provably sets the index.")
c("C03", "proved", "C03_size_any C03_size C03_monotone", "C03_size_any is the size part for every history; C03_size adds the part about indices at or above Size() for the histories that Unset no clear index.")
c("C04", "proved", "C04_count C04_get", "")
c("C05", "proved", "C05_fill C05_full C05_full_missing", "")
c("C06", "proved", "C06_union_intersect C06_size_lost", "Also proves that Size is lost, hence Full() is always true on results.")
c("C07", "proved", "C07_roundtrip C07_reachable C07_injective C07_total", "")
c("C08", "proved", "C08_ranges C08_wraps C08_refuted", "Proved as stated (<= 65536 indices); the unlimited version is refuted.")
c("C09", "proved", "C09_overlap C09_overlap_reachable C09_odd_panics pairUp_none_iff", "")
c("C10", "proved", "C10_unfilledRanges C10_empty_iff_full", "")
c("C11", "proved", "C11_unfilledItems C11_negative", "")
c("C13", "partial", "C13_get_total_partial C13_huge_panics C13_refuted", "False for indices >= 2^63, which panic; the proved part covers every index below 2^63.")
c("C12", "proved", "C12_program C12_copy_isolated C12_copy_constant", "Heap model of Go slices with aliasing; every program over any number of bitsets.")
c("C14", "proved", "C14_roundtrip parse_received", "Any padding and any spare capacity.")
c("C15", "proved", "C15_prefix_free C15_injective C15_kind", "")
c("C16", "proved", "C16_total C16_kind C16_panic_occurs", "Exact characterisation of message / error / panic.")
c("C17", "partial", "C17_chunks_partial C17_received C17_empty_at_256 C17_refuted", "The full statement C17_statement is false of the code and refuted; proved exactly up to 255 entries, with the exact result beyond.")
c("C18", "proved", "C18_names", "Up to 65535 files per listing; beyond that parse_received gives the exact (truncated) result.")
c("C19", "proved", "C19_roundtrip C19_split C19_size C19_sender C19_parse_panics_iff C19_split_panics_iff", "")
c("C21", "proved", "C21_roundtrip C21_accepts C21_injective C21_isBlank C21_fromSlice C21_unchecked", "")
c("C22", "proved", "C22_sound C22_complete C22_error", "")
c("C23", "proved", "C23_describes C23_reads C23_complete", "Sections shorter than 4 GiB (Offset panics above), no read errors while reading back; transient errors while hashing are covered.")
c("C24", "partial", "C24_terminates_partial C24_hangs C24_refuted", "False for reads that keep failing; proved whenever more than n reads succeed.")
c("C25", "proved", "C25_count C25_chunk C25_partition", "")
c("C26", "proved", "C26_share", "For every reachable catalogue (any history with faults, crashes, restarts) and every fault list under which the call returns ok; file sizes below 2^63.")
c("C27", "proved", "C27_own C27_distinct C27_share_again C27_share_again_error C27_register_again", "")
c("C28", "proved", "C28_unshare C28_unknown", "")
c("C29", "proved", "C29_register C27_register_again", "Positive chunk size, size below 2^63 (C37 covers the rest).")
c("C38", "proved", "C38_list C38_total", "")
c("C30", "proved", "C30_restart C30_same C30_list", "Fault-free histories of any length; paths are compared after the JSON codec (lossy for non-UTF-8, see C30_restart), equal for paths that survive it.")
c("C32", "proved", "C32_save", "Every fault list: each system call may fail or the process may die at it, after any part of its effect.")
c("C33", "proved", "C33_download C33_start C33_step C33_any_order C33_content C33_complete C33_empty", "Non-empty files; C33_empty shows that the empty file is complete at once and never created. Step theorems hold for every fault list when the call returns.")
c("C34", "proved", "C34_complete C34_missing C34_agree C34_total", "MissingChunks up to 65536 chunks (16-bit chunk numbers).")
c("C35", "proved", "C35_reader C35_serves C35_absent C35_unknown C35_harmless", "")
c("C31", "partial", "C31_partial C31_refuted C31_forever C31_register_crash C31_share_crash C31_unshare_crash C31_torn_forever C31_torn_crash", "The full statement C31_statement is false of the code and refuted for every environment; C31_forever shows the damage is permanent, C31_torn_forever that a torn index is fatal; proved for deaths between calls, in read-only calls and in SaveChunk before the progress write.")
c("C36", "partial", "C36_partial C36_honest C36_anywhere C36_refuted", "False of the code for names with slashes or dot-dot; C36_anywhere shows a peer can choose any absolute path; true for plain names, which honest peers send (C36_honest).")
c("C37", "partial", "C37_partial C37_refuted C37_panics_iff C37_forever C37_honest", "False of the code and refuted; C37_panics_iff gives the exact set of fatal metadata; proved for all others. Memory exhaustion is not modelled.")

c("C39","proved","C39_clean C39_again C39_total C39_faults","Over every reachable catalogue and map order, provided no shared file is one of the catalogue's own files. C39_faults covers failing operating system calls: a successful Clean then keeps only sound entries but may drop a sound one whose file could not be read.")
c("C61","partial","C61_partial C61_refuted C61_lost","Refuted in full; C61_lost shows the failure for every fresh download and that FileComplete panics afterwards.")
c("C57","proved","C57_list C57_percent C57_complete C57_empty","For all counts below 2^63/10000 (no 64-bit overflow).")
c("C58","proved","C58_forms C58_other C58_capacity","Slices modelled with their capacity.")
c("C60","partial","C60_survives_iff_partial C60_partial C60_panics_iff C60_refuted","C60_survives_iff_partial: the exact condition for the whole command. C60_panics_iff: the exact set of fatal addresses; net.ParseIP is an arbitrary function, the refutation needs it to accept one address that is not IPv4.")
c("C62","proved","C62_sends C62_panics_iff C62_ranges","net.ParseIP is an arbitrary function; net/rpc and gob are not modelled beyond dropping empty slices.")
c("C63","partial","C63_partial C63_refuted","")
c("C20","partial","C20_panics_iff_partial C20_refuted C20_total","Refuted in full; C20_panics_iff_partial is the exact set of fatal datagram sequences. Allocation of the announced size is not modelled.")
c("C43","proved","C43_delivers C43_assembled C43_first_again","")
c("C44","partial","C44_partial C44_refuted C44_loss","Refuted for every hash function that tells two given byte strings apart; C44_loss gives the general class: any lost non-zero byte. C44_partial says what the printed check means.")
c("C40","proved","C40_order C40_stream","Every window, acknowledgement schedule and read or write failure; the file does not change during the upload; chunks below 4 GiB.")
c("C41","proved","C41_window C41_full","C41_full: the window is also kept full.")
c("C46","partial","C46_partial C46_refuted C46_full_chunk","Refuted; C46_partial is exact: the worker exits iff exactly one read reported the end, and hangs for ever after two or more.")
c("C47","partial","C47_partial C47_refuted C41_full","Refuted; exact excess given.")
c("C42","proved","C42_delivers","Reliable link as a queue; every interleaving, also with failing reads and writes and with the receiver giving up.")
c("C45","partial","C45_partial C45_refuted C45_stalls","Refuted; every execution is finite (explicit bound, no fairness needed) and delivers unless CanStall holds, and whenever CanStall holds some execution without faults stops with the receiver waiting, so the condition is exact.")
c("C64","partial","C64_partial C64_refuted C64_dies","Refuted: C64_dies gives the fatal execution for every empty chunk and every window.")
c("C49","proved","C49_distinct C49_window","")
c("C50","proved","C50_only_answers C50_lookup C50_listing","Every interleaving of any number of goroutines; also that nothing sent to a request is lost or repeated.")
c("C51","partial","C51_returns_iff_partial C51_registers_iff C51_wedged C51_refuted","Refuted; the exact condition: a discovery can still return iff no handler sits on the table lock with a full channel nobody reads; once so, for ever.")
c("C48","partial","C48_new_partial C48_refuted C48_stale C48_serves","Refuted; C48_stale gives exactly what is sent to an address already in the table.")
c("C52","proved","C52_reply","Including that nothing changes; the chunk list is specified as the maximal runs of held chunks per requested range.")
c("C55","proved","C55_hosts C55_any_chunk","")
c("C59","proved","C59_ack C59_not_ipv4","")
c("C65","proved","C65_localIP","")
c("C53","proved","C53_listing C53_metadata C53_wrong C53_crashes","End to end from the asked host's catalogue to the asking host's result, for every catalogue and reply size; entries are specified by Describes (base name, hash, sizes, number of chunks held).")
c("C54","partial","C54_fatal_iff_partial C54_refuted C54_kills C54_no_address","Refuted; C54_fatal_iff_partial is the exact set of fatal datagrams in every state reached without faults.")
c("C56","proved","C56_single C56_lowest C56_completes C56_race C56_big","Interleaving model of any number of download goroutines, catalogue calls and other programs with disk faults. C56_single and C56_lowest hold in every run in which nobody else downloads or unshares the file; C56_race and C56_big are the limits the statement names.")
c("C66","proved","C66_starts C66_refused C66_total C66_no_host C66_no_address C66_as_shared","The answer of the asked host is an arbitrary datagram; C66_as_shared composes with the serving side. Described sizes of 2^63 bytes or more and chunk size 0 are excluded.")
c("C67","proved","C67_call C67_run","Restarts are covered by C30/C31, not here.")
c("C68","partial","C68_partial C68_refuted C68_text C68_healthy","False of the code for names that are not UTF-8; C68_partial is exact: everything but the path always survives, the path survives iff it is text (specified independently through RFC 3629). Uses goJson, a byte-level model of Go's JSON encoder and decoder proved to satisfy the laws the other catalogue theorems assume.")
c("C69","partial","C69_partial C69_refuted C69_lost","False of the code: C69_lost shows the loss for every directory whose name is not UTF-8; C69_partial proves the claim for all others. Fault-free runs.")
c("C70","proved","C70_one C70_every_host C70_progress C70_daemon","Interleaving model of DownloadLoop; fairness of the lock is not needed for what is claimed and not modelled.")
c("C71","partial","C71_partial C71_refuted C71_forever C71_blocks","False of the code: C71_forever gives the datagrams for every file and chunk, C71_blocks shows that meanwhile no other download can fetch anything. C71_partial: five seconds of silence end the transfer, whatever was sent before.")
c("C72","partial","C72_saved_chunks_stay_partial C72_since_registered_partial C72_refuted C72_lost C72_never_overstated","False of the code: C72_lost gives the losing schedule for every daemon whose progress for the file is not in memory (after a restart). The partial theorems: nothing is lost once a chunk was saved with no look-up in progress, or since the download was registered. C72_never_overstated is the second half of the claim, in full, from fault-free states.")
c("C73","partial","C73_read_between_calls_partial C73_since_registered_partial C73_read_during_save C73_refuted C73_killed","False of the code: a look-up that reads fewer than 8 bytes of a progress file being rewritten panics, C73_read_during_save is exact. The partial theorems: reads between calls are harmless, and none happen since the download was registered.")
c("C74","proved","C74_content C74_peers C74_host_to_host C74_shared","Peers are honest in the sense of Spec.Assembles: what the receiver assembles, if anything, is the chunk asked for; C74_peers shows that the packets of a chunk in any order have this property. Existing longer files of that name and empty files are excluded in the claim (C33_content and C33_empty say what happens to them).")
c("C75","proved","C75_call C75_clean C75_start C75_save","The download path itself is chosen by a peer's description and can leave the download directory; that is C36, not this claim.")
c("C76","partial","C76_partial C76_refuted C76_overwrites","False of the code: a peer can announce more bytes than a chunk has and overwrite what follows; C76_overwrites gives the datagrams for every file, chunk and replacement. C76_partial: it holds if no announced size exceeds the chunk size.")
c("C77","partial","C77_partial C77_killed_iff_partial C77_result C77_refuted","False of the code: a datagram shorter than a header that arrives after the end kills the daemon (C77_killed_iff_partial is exact, C77_refuted the instance). C77_result is the second half of the claim, in full: the result is that of the sequential model on what was read.")
c("C78","partial","C78_partial C78_leaks_partial C78_rests C78_honest C78_refuted","False of the code: after the end nobody empties the channel of ten packets. C78_partial is exact (thread ends iff at most nine datagrams came after the end marker, socket closes iff at most ten); C78_honest: honest senders always send more, for chunks of up to about one megabyte.")
c("C79","proved","C79_answers C79_after","Relational: both runs see the same faults and the same network. Timing is not modelled.")
c("C80","proved","C80_rehash C80_works","Looking up without the lock is treated in C72 and C73.")
c("C81","partial","C81_partial C81_share_disk_full C81_refuted","False of the code: if writing the index fails while a file is shared, a record without progress stays in memory; C81_share_disk_full shows for every daemon and new file that listing then fails, the file cannot be shared again, and a peer's listing request ends the daemon. C81_partial: reading calls under all faults, and writing calls when the disk works.")
c("C82","partial","C82_partial C82_refuted C82_exactly C82_uploads C82_index C82_peers_alone C82_no_change_partial C82_local_partial","Refuted for the uploads (a request for a chunk from a new address together with an acknowledgement, from peers alone) and for the index (a share together with a peer's question). C82_exactly: these two and no others. C82_no_change_partial: a table that no running goroutine changes is safe; C82_local_partial: shares, listings and running downloads together are safe.")
c("C83","proved","C83_no_circle C83_someone_moves C83_all_finish","The progress files' locks are taken to be one lock; goroutines are the sequences of lock and map operations read off the code.")
c("C84","proved","C84_recorded C84_same C84_download C84_library C84_model","C84_library proves that the byte loop of the standard library computes the clean path; links in the file system are not modelled; the rules are those of the documentation of filepath.Clean, stated as an equivalence on strings (Spec.SamePlace).")
c("C85","partial","C85_partial C85_honest_partial C85_refuted C85_wrong_bytes","C85_wrong_bytes: in every chunk of at least 3048 bytes, two requests and two acknowledgements suffice. C85_partial gives the whole stream (consecutive pieces), not only packet by packet.")
c("C86","partial","C86_partial C86_names C86_overwrites C86_refuted","C86_overwrites: in every state with a file where a download of that name would go, any unknown file offered under that name overwrites its beginning.")
c("C87","partial","C87_partial C87_home C87_daemon_partial C87_general C87_blocks C87_reads_any C87_refuted","C87_home and C87_daemon_partial: the directories main.go chooses meet the conditions for every home directory with an absolute path in valid UTF-8. C87_partial is for the JSON of encoding/json (goJson); C87_general for any JSON library and any set of paths. C87_reads_any: one registered name and one saved chunk, then a restart. C87_partial, C87_general and C87_refuted do not assume that no chunk is saved onto the catalogue's own files; they show it.")
c("C88","proved","C88_nothing_changes C88_reachable C88_answers C88_daemon","'The same about every file' is every field the catalogue returns for every hash. What datagrams can do is crash the daemon (C37, C53, C54) or make it read files it shares. Source addresses can be forged, which the model leaves open: an address is what the datagram claims.")
c("C89","partial","C89_partial C89_local_partial C89_remote_partial C89_prints C89_forged C89_dies C89_refuted C89_chims C89_chims_prints C89_hosts C89_clean_partial","C89_prints and C89_chims_prints say exactly which results are printed. C89_forged shows the ambiguity for every pair of entries with the same name; the name used in C89_refuted is short enough to arrive over the network. C89_clean_partial assumes absolute paths (C84).")
c("C90","partial","C90_stuck C90_partial C90_refuted","C90_stuck is the negative part for every state, host and run; C90_partial the positive part for one host that has the lowest missing chunk. Files of up to 65536 chunks; larger ones are in C56.")
c("C91","partial","C91_shared_partial C91_clean_partial C91_clean_stays_partial C91_lie C91_refuted","Positive for shared files and after clean; for downloads from peers that send the right chunks see C74. C91_lie covers every hash and every non-empty content whose hash is another one.")
c("C92","partial","C92_seen C92_partial C92_collects C92_refuted","C92_seen is the exact result for every number of runs; C92_refuted is stated for all hosts and fails for one that has every other chunk of 256. Loss, repetition and order of answers are the network's; C92_collects holds for every list of arriving messages.")
c("C93","partial","C93_start C93_homeless C93_dies C93_death C93_never C93_partial C93_refuted","C93_partial: the statement for installations where the downloads directory exists; C93_refuted: its negation for every home directory where it does not. Directories are a predicate next to the file system: a file can only be created in a directory that exists (Spec.Housed); that nobody else touches the file is part of Spec.Lawful. Reachable catalogues are those of Reach (no chunk saved onto the catalogue's own files).")
c("C94","partial","C94_port C94_partial C94_second C94_harm C94_lasts C94_alone_partial C94_lost C94_refuted","C94_partial is the exact condition for commands, C94_port the part about datagrams. C94_alone_partial: a daemon that is alone always gets socket and port, whatever earlier ones left behind. All daemons run as one user; a process that ends for other reasons is a step that can happen at any time. C94_lost is about fault-free catalogues as in DESIGN.md (CleanReach).")
c("C95","proved","C95_cut C95_resumes C95_itself C95_renamed","C95_cut gives the state on disk after the interruption, which is a hypothesis of C95_resumes; the file fits 65536 chunks, and nothing longer than it was at its path before. The resumed download is alone and meets a host that answers.")
c("C96","partial","C96_partial C96_one_partial C96_forged C96_refuted","C96_partial is the exact condition, C96_one_partial the common case of a host with one address, C96_forged the part about other hosts. Which address a datagram is sent from is up to the operating system and a parameter here. 'Reachable' as in DESIGN.md.")
c("C97","partial","C97_partial C97_ends C97_search C97_other C97_refuted C66_no_address","C97_partial is the exact condition for a start; C97_search, C66_no_address and C97_other describe a daemon that loses its addresses later.")
c("C98","partial","C98_kept C98_refused C98_partial C98_for_ever C98_exhausts C98_refuted",
  "refuted as stated: an upload's file is never closed. Exact condition proved: a chunk is sent iff fewer addresses have been answered than there are descriptors; uploads are never forgotten, so refusal lasts until a restart; one peer exhausts any limit up to 65535 with honest requests. The descriptors left for uploads are a parameter; descriptors used by sockets and by the catalogue for the duration of a call are not counted, and the file opened by a refused or repeated request counts as closed")
c("C99","partial","C99_partial C99_download C99_ends C99_upload C99_refuted","False of the code. C99_download: the goroutine of a download stays in its loop without getting a chunk, and dies at FileComplete, MissingChunks or SaveChunk; C99_ends: no infinite execution in which it takes infinitely many steps while the file stays away. C99_upload: acknowledgements have the same effect whatever the catalogue says.")
c("C100","proved","C100_reads C100_writes C100_restart","The grammar of JSON texts is specified independently of the decoder (Spec/JsonText); the decoder is shown to accept every text of it. Repeated, missing and null members are included, as are the spellings of names that encoding/json takes for the same; integers outside of 64 bits are left out.")
c("C101","partial","C101_partial C101_stops C101_refuted","False of the code; C101_partial gives the exact number of goroutines that end, wait and hang, in terms of how many began and how many reads met the end. Executions in which a goroutine panics (which ends the daemon) are left out.")
c("C102","partial","C102_partial C102_answers C102_register C102_lost C102_refuted","False of the code because RegisterDownload drops the error of the write of the progress file. C102_partial: every other call, and it can be applied to the next call too; C102_answers the same for the answers of the calls and for the start; C102_register exactly what RegisterDownload can leave undone; C102_lost for every new download.")
c("C103","partial","C103_partial C103_exact C103_refuted","False of the code: downloadChunk panics on an error of SaveChunk, and the progress file is rewritten in place. C103_exact: the outcome for every pattern of failing operations (what a write of the progress that fails after eight bytes or more leaves: C119).")
c("C104","partial","C104_partial C104_tight C104_no_bound C104_refuted","False of the code. C104_partial: the exact bound when requests do not overlap, reached by C104_tight. C104_no_bound: two overlapping requests, no failures, 2+2cap+4k packets sent and 2+2k acknowledged.")
c("C105","partial","C105_partial C105_panics C105_refuted","False of the code; C105_partial covers requests that do not overlap. C105_panics: two requests suffice for every chunk and window described.")
c("C106","proved","C106_reaches C106_collected C106_no_leftover","Executions carry a ghost count of the identifiers drawn; the condition on the last 65536 requests is the one under which the 16-bit counter cannot come round.")
c("C107","partial","C107_partial C107_exact C107_honest C107_any C107_refuted","False of the code. C107_exact gives the size of the buffer at every moment in terms of what arrived; C107_any shows that every size below 2^32 can be forced; C107_partial and C107_honest are what holds.")
c("C108","proved","C108_succeeds C108_again","Success means that the call returns without error or panic. Get, FileComplete, MissingChunks and SaveChunk panic for an unknown hash, the others return an error; which error is covered by C27, C28, C35 and C80.")
c("C109","partial","C109_partial C109_starts C109_loses C109_record C109_refuted","False of the code because it never calls Sync. C109_partial: all is well if the data file is at least as new as the progress file. C109_starts: what holds whatever is lost. C109_loses: every chunk that was not there before can be lost. C109_record: RegisterDownload.")
c("C110","proved","C110_one_by_one C110_order C110_reach C110_both","The calls in single steps, bytes of writes included (Model/Steps), run alone are the calls of Model/Catalogue, and the lock keeps them apart. C110_reach carries the theorems about reachable states over to concurrent use. C110_both: both orders of two simultaneous calls happen.")
c("C111","proved","C111_killed C111_one C111_usable C111_every_byte","Every moment of a call is covered by one of its crash faults, by composition over the steps. C111_every_byte: the daemon can indeed be caught after any number of bytes of the index. No chunk saved onto the catalogue's own files (C87).")
c("C112","proved","C112_network C112_arrives C112_spreads C112_get","Model/Network composes the catalogue, the server's answers, StartDownload, the sender and the receiver of the other models; a chunk can come from any host that shows it as saved, also from one that itself has only part of the file. C112_spreads and C112_get are existence of a run; that every maximal fault-free transfer delivers is C45.")
c("C113","proved","C113_success C113_register C113_dropped C113_returns C113_start C113_stops","C113_success covers every call except RegisterDownload, from any state; C113_register says what its success means and C113_dropped that the exception occurs for every download it can register. C113_returns and C113_stops: after histories without failures. GetChunkReader: that its read loop ends is C24.")
c("C114","proved","C114_safe C114_hole C114_corrupts","The request arrives once: several requests for one address are C85, C101 and C104. Chunks with no byte left are C64. That the bytes handed over are saved whatever the hash check says is C44.")
c("C115","partial","C115_refuted C115_network_partial C115_arrives C115_silent C115_passed_on","C115_statement is refuted (C115_refuted, from C115_passed_on). Requests, descriptions and the discovery of hosts are not lost in this model: a lost one is an event that does not happen. As in C112, a user shares under this hash only this content and leaves the file alone, and the place of the download is free.")
c("C116","partial","C116_refuted C116_keeps_partial C116_complete","C116_statement is refuted (C116_refuted, from C56_race: the run consists only of steps of the two downloads). Missing: that the daemon lives. The second half (C116_complete) is proved.")
c("C117","proved","C117_same_file","For the modelled JSON writer of the standard library (goJson); the two histories start with an empty data directory of the same name.")
c("C118","proved","C118_leaves C118_sent C118_answers","Whole-daemon model; a call of the catalogue is one step (C110); an upload sees at every moment the contents the path has then or had since it was opened. C118_sent: chunks that the catalogue has do leave. Requests and acknowledgements that the daemon sends for its own downloads are not shown in this model (they hold a hash and numbers only).")
c("C119","proved","C119_cut C119_every C119_stuck C119_complete C119_get C119_dies C119_never","The write of the progress file truncates it and then writes the words in order; a death or an error leaves a prefix (as in the model of the disk). SaveChunk only; a death in ShareFile, RegisterDownload or UnshareFile is C31.")
c("C120","proved","C120_usable_iff C120_forever C120_start C120_register C120_share C120_unshare C120_save C31_partial C31_forever","A write that dies leaves a prefix of what was to be written (model of the disk). `Works` means that the start and one listing succeed: a progress file cut at whole words is listed, but see C119 for what it shows. Calls that write nothing leave the disk as it was (C31_partial). For ever: C120_forever (in all later histories, with whatever faults); what else fails then is C31_forever.")
c("C121","partial","C121_exact C121_partial C121_mixed_up C121_never_existed C121_refuted C121_downloaded C121_finishes","False of the code: the size is taken by os.Stat and the hash by reading the file afterwards, so any two contents, one at each moment, make a record with the size of the one and the hash of the other (C121_mixed_up); with a change between two reads the hash is that of a content the file never had (C121_never_existed). C121_exact says exactly what is recorded. If the later content has more chunks, whoever downloads it gets its beginning only, and the download counts as finished (C121_downloaded, C121_finishes). C121_partial: if the file is not changed during the call, the call is the one of the other models (C26). Changes of other files during the call are not modelled.")
c("C122","proved","C122_hosts C122_any C122_wedged C122_search_iff C122_stopped","That the answer comes from the host it names is not claimed (C96). The link between a download and its own search is made in Model/Linked.lean; each of its steps is a step of the daemon of Model/Daemon.lean (LinkRun.daemon), whose table behaves as that of C50, C51 and C106 (DmRun.table). C122_search_iff is for the searches of the goroutine; C122_wedged and C122_stopped also for that of the command.")
c("C123","partial","C123_refuted C123_ends_partial C123_dies C123_steps_partial C123_get_partial C123_host_partial","C123_statement is refuted. What holds instead: C123_ends_partial (the daemon ends within `left` steps of the goroutine; until then the file is shown as before), C123_dies (it does end, for every download at the beginning of a round), C123_steps_partial (also with transfers under way), C123_get_partial and C123_host_partial (the command). The network being away means that no socket to another machine can be opened; whatever was sent before may still arrive. 'Reachable' as in DESIGN.md: valid UTF-8 data directory, no chunk saved onto the catalogue's own files (C87).")
c("C124","partial","C124_refuted C124_ends_iff_partial C124_disk_partial C124_goes_on_partial C124_peer","C124_statement is refuted. C124_ends_iff_partial is exact for a disk that works; C124_disk_partial gives the sufficient condition for a failing disk, where a `get` of a known file whose progress cannot be read also asks the other host. One command at a time; shared files below 2^63 bytes. net/rpc itself and the printing of the answer (C89) are not part of it. 'Reachable' as in DESIGN.md: valid UTF-8 data directory, no chunk saved onto the catalogue's own files (C87).")
c("C125","partial","C125_refuted C125_sound_partial C125_alive_partial C125_dies_iff_partial C125_back C125_restored C125_alone","C125_statement is refuted. Each call of the catalogue is one step (justified by C110 for the locked part; the unlocked reading in Rehash is C72/C73). The disk does not fail. Nothing is wrong with a file (Spec.Undamaged): whenever the catalogue has it, it can be read and has the content its hash names or is an unfinished download, and no chunk beyond its last one is saved. 'Reachable' as in DESIGN.md: valid UTF-8 data directory, no chunk saved onto the catalogue's own files (C87).")
c("C126","partial","C126_refuted C126_grown C126_cut C126_mixture C126_ends C126_nothing C126_refilled C126_opens C126_sent C126_survives C126_dies_iff_partial C126_no_longer_partial C126_saved C126_elsewhere C126_any_network","C126_statement is refuted three times: C126_grown (more than 1000 bytes beyond the announced size), C126_cut (nothing left of the chunk), C126_mixture (overwritten: the saved bytes never were in the file; the failed check of the hash is only printed, C44). One request from the address (several at once: C85). Missing in the _partial ones: files that do not reach into the chunk when the first packet is made, which C126_nothing settles (the next packet is taken for an announcement); for lost, repeated or reordered packets C126_any_network gives the two ways to die and what is saved, C20 the exact condition. C126_survives and C126_opens assume that reads succeed.")
c("C127","partial","C127_refuted C127_floods C127_unacked_partial C127_once_partial C127_answers","C127_statement K is refuted for every K < 32768 (C127_refuted), from C127_floods, which holds of every chunk in any catalogue, every window and every address. Missing in C127_unacked_partial: a bound when acknowledgements come; in C127_once_partial: several requests from one address (C104 says how they share the window). The size of an answer is not in proportion to the question: a listing is as long as the catalogue, up to 65507 bytes.")
c("C128","proved","C128_causes C128_fatal C128_serves","Nothing fails means: the catalogue is always as it is without failed operations of the disk, the reads and sends of uploads succeed, the machine has an address, and datagrams come from addresses as a socket gives them (Spec.WellRun). The steps of downloads and commands that end the daemon are C64, C119, C123, C124 and C131; that two requests from one address can end it is C105_panics.")
c("C129","partial","C129_refuted C129_dies C129_window C129_possible C129_partial","C129_statement is refuted (C129_refuted), from C129_dies, which holds of every file with a full first chunk of more than 2024 bytes whose length is not 1000 plus a multiple of 1024. Missing in C129_partial: requests that overlap. C129_possible carries the behaviours of one upload with many goroutines (C104, C105) over to the whole daemon; it leaves out changes of the file during the upload.")
c("C130","proved","C130_daemon C130_help C130_usage C130_command C130_alone C130_no","flag.Parse and strconv.ParseBool are modelled from the Go library for the one flag of the program; net.ParseIP is an arbitrary function; the exit status after help is left open.")
c("C131","proved","C131_all C131_exact C131_network C131_daemon","Spec.Halts names the step of the download and what the network does in it (C131_all: these are all the steps that end the daemon, whatever the disk does); Spec.Reason is stated on what the catalogue shows. Each catalogue call is one step.")
c("C132","proved","C132_status C132_unsent C132_share C132_list C132_get C132_clean C132_chims C132_remote","The texts of errors are not modelled; that net/rpc turns the end of the daemon into an error of the call, and that a Go panic ends a process with status 2, are taken from the library. The status after help is a parameter.")
c("C133","partial","C133_refuted C133_hashless_partial C133_ends_iff_partial C133_disk_partial C133_session_partial","The first half is refuted of the code: get, chims, and list with an address, sent without a hash, always end the daemon (the missing pointer is read; nothing on the disk changes). Proved instead: exactly those requests and the ones of C124 end it, and the second half. That gob leaves out nil pointers is taken from the library.")
c("C134","proved","C134_one C134_refused C134_first","Each call of the catalogue is one step (justified by C110). 'Reachable' as in DESIGN.md: valid UTF-8 data directory, no chunk saved onto the catalogue's own files (C87). Descriptions with chunk size 0 or more than 2^63 bytes: C37, C124.")
c("C135","proved","C135_owned C135_empty C135_listed C135_start C135_exact C135_limit","Reachable as in DESIGN.md: valid UTF-8 data directory, no chunk saved onto the catalogue's own files (C87). Other files that somebody puts into the data directory are not spoken of.")
c("C136","proved","C136_share C136_register C136_unshare C136_stays C136_stuck C136_register_possible C136_share_possible C136_unshare_possible","Each outcome does occur, for every new (or shown) file: the _possible theorems; that of a share which leaves an unreadable progress is C81_share_disk_full. Reachable as in DESIGN.md: valid UTF-8 data directory, no chunk saved onto the catalogue's own files (C87). A write that fails may have written any beginning of its data.")
c("C137","proved","C137_served C137_opened C137_short C137_finishes C137_search","Can be handled: there is a schedule in which its goroutine alone moves. That a response which has been handed over reaches its search is another matter: it may have to wait for the lock of the table (C122). A request for a chunk may never end while the file cannot be read (C131); then the goroutine is left reading, as by itself. The catalogue's calls are single steps (C110).")
c("C138","proved","C138_register C138_share C138_unshare C138_written C138_unshare_leaves C138_heals C138_permanent","What the failed call leaves in memory is C136; that a state in which a daemon does not work lasts for ever is C120.")
c("C139","proved","C139_exact C139_accepted C139_refused C139_listed C139_starts","The grammar is specified independently of the decoder (Spec/JsonText, Spec/LaxJson); the decoder is shown to accept these texts and nothing else. The model of encoding/json accepts integers beyond 64 bits, which encoding/json refuses; so for texts with such integers only the refusal of everything outside the grammar carries over. If two keys spell the same hash in different case, either entry may be the one shown.")
c("C140","proved","C140_says C140_stray C140_saved","What a progress file says (Spec/ProgressText) is stated on its bytes, independently of the bit set. If two keys of the index spell the same hash in different case, either entry may be the one that counts.")
c("C141","proved","C141_index C141_progress","For the modelled JSON writer of the standard library (goJson); the formats are those of Spec/LaxJson and Spec/ProgressText, stated independently of the program. 'Reachable' as in DESIGN.md: valid UTF-8 data directory, no chunk saved onto the catalogue's own files (C87).")

{
 "claims": [
  {
   "property": "C01",
   "status": "proved",
   "theorems": [
    "Flu.C01_set_get",
    "Flu.C01_history_get",
    "Flu.C01_set_frame",
    "Flu.history_refines"
   ],
   "note": "Indices below 2^63-1 (Go int). Set-only histories, mixed legal histories, and the frame property for arbitrary bitset values."
  },
  {
   "property": "C02",
   "status": "partial",
   "theorems": [
    "Flu.C02_unset_partial",
    "Flu.C02_unset_clear",
    "Flu.C02_refuted"
   ],
   "note": "The full statement C02_statement is false of the code and refuted; true for set or far out-of-bounds indices; otherwise Unset provably sets the index."
  },
  {
   "property": "C03",
   "status": "proved",
   "theorems": [
    "Flu.C03_size_any",
    "Flu.C03_size",
    "Flu.C03_monotone"
   ],
   "note": "C03_size_any is the size part for every history; C03_size adds the part about indices at or above Size() for the histories that Unset no clear index."
  },
  {
   "property": "C04",
   "status": "proved",
   "theorems": [
    "Flu.C04_count",
    "Flu.C04_get"
   ],
   "note": ""
  },
  {
   "property": "C05",
   "status": "proved",
   "theorems": [
    "Flu.C05_fill",
    "Flu.C05_full",
    "Flu.C05_full_missing"
   ],
   "note": ""
  },
  {
   "property": "C06",
   "status": "proved",
   "theorems": [
    "Flu.C06_union_intersect",
    "Flu.C06_size_lost"
   ],
   "note": "Also proves that Size is lost, hence Full() is always true on results."
  },
  {
   "property": "C07",
   "status": "proved",
   "theorems": [
    "Flu.C07_roundtrip",
    "Flu.C07_reachable",
    "Flu.C07_injective",
    "Flu.C07_total"
   ],
   "note": ""
  },
  {
   "property": "C08",
   "status": "proved",
   "theorems": [
    "Flu.C08_ranges",
    "Flu.C08_wraps",
    "Flu.C08_refuted"
   ],
   "note": "Proved as stated (<= 65536 indices); the unlimited version is refuted."
  },
  {
   "property": "C09",
   "status": "proved",
   "theorems": [
    "Flu.C09_overlap",
    "Flu.C09_overlap_reachable",
    "Flu.C09_odd_panics",
    "Flu.pairUp_none_iff"
   ],
   "note": ""
  },
  {
   "property": "C10",
   "status": "proved",
   "theorems": [
    "Flu.C10_unfilledRanges",
    "Flu.C10_empty_iff_full"
   ],
   "note": ""
  },
  {
   "property": "C100",
   "status": "proved",
   "theorems": [
    "Flu.C100_reads",
    "Flu.C100_writes",
    "Flu.C100_restart"
   ],
   "note": "The grammar of JSON texts is specified independently of the decoder (Spec/JsonText); the decoder is shown to accept every text of it. Repeated, missing and null members are included, as are the spellings of names that encoding/json takes for the same; integers outside of 64 bits are left out. 'Reachable' as in DESIGN.md: valid UTF-8 data directory, no chunk saved onto the catalogue's own files (C87)."
  },
  {
   "property": "C101",
   "status": "partial",
   "theorems": [
    "Flu.C101_partial",
    "Flu.C101_stops",
    "Flu.C101_refuted"
   ],
   "note": "False of the code; C101_partial gives the exact number of goroutines that end, wait and hang, in terms of how many began and how many reads met the end. Executions in which a goroutine panics (which ends the daemon) are left out."
  },
  {
   "property": "C102",
   "status": "partial",
   "theorems": [
    "Flu.C102_partial",
    "Flu.C102_answers",
    "Flu.C102_register",
    "Flu.C102_lost",
    "Flu.C102_refuted"
   ],
   "note": "False of the code because RegisterDownload drops the error of the write of the progress file. C102_partial: every other call, and it can be applied to the next call too; C102_answers the same for the answers of the calls and for the start; C102_register exactly what RegisterDownload can leave undone; C102_lost for every new download. 'Reachable' as in DESIGN.md: valid UTF-8 data directory, no chunk saved onto the catalogue's own files (C87)."
  },
  {
   "property": "C103",
   "status": "partial",
   "theorems": [
    "Flu.C103_partial",
    "Flu.C103_exact",
    "Flu.C103_refuted"
   ],
   "note": "False of the code: downloadChunk panics on an error of SaveChunk, and the progress file is rewritten in place. C103_exact: the outcome for every pattern of failing operations (what a write of the progress that fails after eight bytes or more leaves: C119). 'Reachable' as in DESIGN.md: valid UTF-8 data directory, no chunk saved onto the catalogue's own files (C87)."
  },
  {
   "property": "C104",
   "status": "partial",
   "theorems": [
    "Flu.C104_partial",
    "Flu.C104_tight",
    "Flu.C104_no_bound",
    "Flu.C104_refuted"
   ],
   "note": "False of the code. C104_partial: the exact bound when requests do not overlap, reached by C104_tight. C104_no_bound: two overlapping requests, no failures, 2+2cap+4k packets sent and 2+2k acknowledged."
  },
  {
   "property": "C105",
   "status": "partial",
   "theorems": [
    "Flu.C105_partial",
    "Flu.C105_panics",
    "Flu.C105_refuted"
   ],
   "note": "False of the code; C105_partial covers requests that do not overlap. C105_panics: two requests suffice for every chunk and window described. 'Reachable' as in DESIGN.md: valid UTF-8 data directory, no chunk saved onto the catalogue's own files (C87)."
  },
  {
   "property": "C106",
   "status": "proved",
   "theorems": [
    "Flu.C106_reaches",
    "Flu.C106_collected",
    "Flu.C106_no_leftover"
   ],
   "note": "Executions carry a ghost count of the identifiers drawn; the condition on the last 65536 requests is the one under which the 16-bit counter cannot come round."
  },
  {
   "property": "C107",
   "status": "partial",
   "theorems": [
    "Flu.C107_partial",
    "Flu.C107_exact",
    "Flu.C107_honest",
    "Flu.C107_any",
    "Flu.C107_refuted"
   ],
   "note": "False of the code. C107_exact gives the size of the buffer at every moment in terms of what arrived; C107_any shows that every size below 2^32 can be forced; C107_partial and C107_honest are what holds."
  },
  {
   "property": "C108",
   "status": "proved",
   "theorems": [
    "Flu.C108_succeeds",
    "Flu.C108_again"
   ],
   "note": "Success means that the call returns without error or panic. Get, FileComplete, MissingChunks and SaveChunk panic for an unknown hash, the others return an error; which error is covered by C27, C28, C35 and C80. 'Reachable' as in DESIGN.md: valid UTF-8 data directory, no chunk saved onto the catalogue's own files (C87)."
  },
  {
   "property": "C109",
   "status": "partial",
   "theorems": [
    "Flu.C109_partial",
    "Flu.C109_starts",
    "Flu.C109_loses",
    "Flu.C109_record",
    "Flu.C109_refuted"
   ],
   "note": "False of the code because it never calls Sync. C109_partial: all is well if the data file is at least as new as the progress file. C109_starts: what holds whatever is lost. C109_loses: every chunk that was not there before can be lost. C109_record: RegisterDownload. 'Reachable' as in DESIGN.md: valid UTF-8 data directory, no chunk saved onto the catalogue's own files (C87)."
  },
  {
   "property": "C11",
   "status": "proved",
   "theorems": [
    "Flu.C11_unfilledItems",
    "Flu.C11_negative"
   ],
   "note": ""
  },
  {
   "property": "C110",
   "status": "proved",
   "theorems": [
    "Flu.C110_one_by_one",
    "Flu.C110_order",
    "Flu.C110_reach",
    "Flu.C110_both"
   ],
   "note": "The calls in single steps, bytes of writes included (Model/Steps), run alone are the calls of Model/Catalogue, and the lock keeps them apart. C110_reach carries the theorems about reachable states over to concurrent use. C110_both: both orders of two simultaneous calls happen. 'Reachable' as in DESIGN.md: valid UTF-8 data directory, no chunk saved onto the catalogue's own files (C87)."
  },
  {
   "property": "C111",
   "status": "proved",
   "theorems": [
    "Flu.C111_killed",
    "Flu.C111_one",
    "Flu.C111_usable",
    "Flu.C111_every_byte"
   ],
   "note": "Every moment of a call is covered by one of its crash faults, by composition over the steps. C111_every_byte: the daemon can indeed be caught after any number of bytes of the index. No chunk saved onto the catalogue's own files (C87). 'Reachable' as in DESIGN.md: valid UTF-8 data directory, no chunk saved onto the catalogue's own files (C87)."
  },
  {
   "property": "C112",
   "status": "proved",
   "theorems": [
    "Flu.C112_network",
    "Flu.C112_arrives",
    "Flu.C112_spreads",
    "Flu.C112_get"
   ],
   "note": "Model/Network composes the catalogue, the server's answers, StartDownload, the sender and the receiver of the other models; a chunk can come from any host that shows it as saved, also from one that itself has only part of the file. C112_spreads and C112_get are existence of a run; that every maximal fault-free transfer delivers is C45."
  },
  {
   "property": "C113",
   "status": "proved",
   "theorems": [
    "Flu.C113_success",
    "Flu.C113_register",
    "Flu.C113_dropped",
    "Flu.C113_returns",
    "Flu.C113_start",
    "Flu.C113_stops"
   ],
   "note": "C113_success covers every call except RegisterDownload, from any state; C113_register says what its success means and C113_dropped that the exception occurs for every download it can register. C113_returns and C113_stops: after histories without failures. GetChunkReader: that its read loop ends is C24. 'Reachable' as in DESIGN.md: valid UTF-8 data directory, no chunk saved onto the catalogue's own files (C87)."
  },
  {
   "property": "C114",
   "status": "proved",
   "theorems": [
    "Flu.C114_safe",
    "Flu.C114_hole",
    "Flu.C114_corrupts"
   ],
   "note": "The request arrives once: several requests for one address are C85, C101 and C104. Chunks with no byte left are C64. That the bytes handed over are saved whatever the hash check says is C44."
  },
  {
   "property": "C115",
   "status": "partial",
   "theorems": [
    "Flu.C115_refuted",
    "Flu.C115_network_partial",
    "Flu.C115_arrives",
    "Flu.C115_silent",
    "Flu.C115_passed_on"
   ],
   "note": "C115_statement is refuted (C115_refuted, from C115_passed_on). Requests, descriptions and the discovery of hosts are not lost in this model: a lost one is an event that does not happen. As in C112, a user shares under this hash only this content and leaves the file alone, and the place of the download is free."
  },
  {
   "property": "C116",
   "status": "partial",
   "theorems": [
    "Flu.C116_refuted",
    "Flu.C116_keeps_partial",
    "Flu.C116_complete"
   ],
   "note": "C116_statement is refuted (C116_refuted, from C56_race: the run consists only of steps of the two downloads). Missing: that the daemon lives. The second half (C116_complete) is proved. 'Reachable' as in DESIGN.md: valid UTF-8 data directory, no chunk saved onto the catalogue's own files (C87)."
  },
  {
   "property": "C117",
   "status": "proved",
   "theorems": [
    "Flu.C117_same_file"
   ],
   "note": "For the modelled JSON writer of the standard library (goJson); the two histories start with an empty data directory of the same name. 'Reachable' as in DESIGN.md: valid UTF-8 data directory, no chunk saved onto the catalogue's own files (C87)."
  },
  {
   "property": "C118",
   "status": "proved",
   "theorems": [
    "Flu.C118_leaves",
    "Flu.C118_sent",
    "Flu.C118_answers"
   ],
   "note": "Whole-daemon model; a call of the catalogue is one step (C110); an upload sees at every moment the contents the path has then or had since it was opened. C118_sent: chunks that the catalogue has do leave. Requests and acknowledgements that the daemon sends for its own downloads are not shown in this model (they hold a hash and numbers only). 'Reachable' as in DESIGN.md: valid UTF-8 data directory, no chunk saved onto the catalogue's own files (C87)."
  },
  {
   "property": "C119",
   "status": "proved",
   "theorems": [
    "Flu.C119_cut",
    "Flu.C119_every",
    "Flu.C119_stuck",
    "Flu.C119_complete",
    "Flu.C119_get",
    "Flu.C119_dies",
    "Flu.C119_never"
   ],
   "note": "The write of the progress file truncates it and then writes the words in order; a death or an error leaves a prefix (as in the model of the disk). SaveChunk only; a death in ShareFile, RegisterDownload or UnshareFile is C31. 'Reachable' as in DESIGN.md: valid UTF-8 data directory, no chunk saved onto the catalogue's own files (C87)."
  },
  {
   "property": "C12",
   "status": "proved",
   "theorems": [
    "Flu.C12_program",
    "Flu.C12_copy_isolated",
    "Flu.C12_copy_constant"
   ],
   "note": "Heap model of Go slices with aliasing; every program over any number of bitsets."
  },
  {
   "property": "C120",
   "status": "proved",
   "theorems": [
    "Flu.C120_usable_iff",
    "Flu.C120_forever",
    "Flu.C120_start",
    "Flu.C120_register",
    "Flu.C120_share",
    "Flu.C120_unshare",
    "Flu.C120_save",
    "Flu.C31_partial",
    "Flu.C31_forever"
   ],
   "note": "A write that dies leaves a prefix of what was to be written (model of the disk). `Works` means that the start and one listing succeed: a progress file cut at whole words is listed, but see C119 for what it shows. Calls that write nothing leave the disk as it was (C31_partial). For ever: C120_forever (in all later histories, with whatever faults); what else fails then is C31_forever. 'Reachable' as in DESIGN.md: valid UTF-8 data directory, no chunk saved onto the catalogue's own files (C87)."
  },
  {
   "property": "C121",
   "status": "partial",
   "theorems": [
    "Flu.C121_exact",
    "Flu.C121_partial",
    "Flu.C121_mixed_up",
    "Flu.C121_never_existed",
    "Flu.C121_refuted",
    "Flu.C121_downloaded",
    "Flu.C121_finishes"
   ],
   "note": "False of the code: the size is taken by os.Stat and the hash by reading the file afterwards, so any two contents, one at each moment, make a record with the size of the one and the hash of the other (C121_mixed_up); with a change between two reads the hash is that of a content the file never had (C121_never_existed). C121_exact says exactly what is recorded. If the later content has more chunks, whoever downloads it gets its beginning only, and the download counts as finished (C121_downloaded, C121_finishes). C121_partial: if the file is not changed during the call, the call is the one of the other models (C26). Changes of other files during the call are not modelled. 'Reachable' as in DESIGN.md: valid UTF-8 data directory, no chunk saved onto the catalogue's own files (C87)."
  },
  {
   "property": "C122",
   "status": "proved",
   "theorems": [
    "Flu.C122_hosts",
    "Flu.C122_any",
    "Flu.C122_wedged",
    "Flu.C122_search_iff",
    "Flu.C122_stopped"
   ],
   "note": "That the answer comes from the host it names is not claimed (C96). The link between a download and its own search is made in Model/Linked.lean; each of its steps is a step of the daemon of Model/Daemon.lean (LinkRun.daemon), whose table behaves as that of C50, C51 and C106 (DmRun.table). C122_search_iff is for the searches of the goroutine; C122_wedged and C122_stopped also for that of the command."
  },
  {
   "property": "C123",
   "status": "partial",
   "theorems": [
    "Flu.C123_refuted",
    "Flu.C123_ends_partial",
    "Flu.C123_dies",
    "Flu.C123_steps_partial",
    "Flu.C123_get_partial",
    "Flu.C123_host_partial"
   ],
   "note": "C123_statement is refuted. What holds instead: C123_ends_partial (the daemon ends within `left` steps of the goroutine; until then the file is shown as before), C123_dies (it does end, for every download at the beginning of a round), C123_steps_partial (also with transfers under way), C123_get_partial and C123_host_partial (the command). The network being away means that no socket to another machine can be opened; whatever was sent before may still arrive. 'Reachable' as in DESIGN.md: valid UTF-8 data directory, no chunk saved onto the catalogue's own files (C87)."
  },
  {
   "property": "C124",
   "status": "partial",
   "theorems": [
    "Flu.C124_refuted",
    "Flu.C124_ends_iff_partial",
    "Flu.C124_disk_partial",
    "Flu.C124_goes_on_partial",
    "Flu.C124_peer"
   ],
   "note": "C124_statement is refuted. C124_ends_iff_partial is exact for a disk that works; C124_disk_partial gives the sufficient condition for a failing disk, where a `get` of a known file whose progress cannot be read also asks the other host. One command at a time; shared files below 2^63 bytes. net/rpc itself and the printing of the answer (C89) are not part of it. 'Reachable' as in DESIGN.md: valid UTF-8 data directory, no chunk saved onto the catalogue's own files (C87)."
  },
  {
   "property": "C125",
   "status": "partial",
   "theorems": [
    "Flu.C125_refuted",
    "Flu.C125_sound_partial",
    "Flu.C125_alive_partial",
    "Flu.C125_dies_iff_partial",
    "Flu.C125_back",
    "Flu.C125_restored",
    "Flu.C125_alone"
   ],
   "note": "C125_statement is refuted. Each call of the catalogue is one step (justified by C110 for the locked part; the unlocked reading in Rehash is C72/C73). The disk does not fail. Nothing is wrong with a file (Spec.Undamaged): whenever the catalogue has it, it can be read and has the content its hash names or is an unfinished download, and no chunk beyond its last one is saved. 'Reachable' as in DESIGN.md: valid UTF-8 data directory, no chunk saved onto the catalogue's own files (C87)."
  },
  {
   "property": "C126",
   "status": "partial",
   "theorems": [
    "Flu.C126_refuted",
    "Flu.C126_grown",
    "Flu.C126_cut",
    "Flu.C126_mixture",
    "Flu.C126_ends",
    "Flu.C126_nothing",
    "Flu.C126_refilled",
    "Flu.C126_opens",
    "Flu.C126_sent",
    "Flu.C126_survives",
    "Flu.C126_dies_iff_partial",
    "Flu.C126_no_longer_partial",
    "Flu.C126_saved",
    "Flu.C126_elsewhere",
    "Flu.C126_any_network"
   ],
   "note": "C126_statement is refuted three times: C126_grown (more than 1000 bytes beyond the announced size), C126_cut (nothing left of the chunk), C126_mixture (overwritten: the saved bytes never were in the file; the failed check of the hash is only printed, C44). One request from the address (several at once: C85). Missing in the _partial ones: files that do not reach into the chunk when the first packet is made, which C126_nothing settles (the next packet is taken for an announcement); for lost, repeated or reordered packets C126_any_network gives the two ways to die and what is saved, C20 the exact condition. C126_survives and C126_opens assume that reads succeed."
  },
  {
   "property": "C127",
   "status": "partial",
   "theorems": [
    "Flu.C127_refuted",
    "Flu.C127_floods",
    "Flu.C127_unacked_partial",
    "Flu.C127_once_partial",
    "Flu.C127_answers"
   ],
   "note": "C127_statement K is refuted for every K < 32768 (C127_refuted), from C127_floods, which holds of every chunk in any catalogue, every window and every address. Missing in C127_unacked_partial: a bound when acknowledgements come; in C127_once_partial: several requests from one address (C104 says how they share the window). The size of an answer is not in proportion to the question: a listing is as long as the catalogue, up to 65507 bytes. 'Reachable' as in DESIGN.md: valid UTF-8 data directory, no chunk saved onto the catalogue's own files (C87)."
  },
  {
   "property": "C128",
   "status": "proved",
   "theorems": [
    "Flu.C128_causes",
    "Flu.C128_fatal",
    "Flu.C128_serves"
   ],
   "note": "Nothing fails means: the catalogue is always as it is without failed operations of the disk, the reads and sends of uploads succeed, the machine has an address, and datagrams come from addresses as a socket gives them (Spec.WellRun). The steps of downloads and commands that end the daemon are C64, C119, C123, C124 and C131; that two requests from one address can end it is C105_panics. 'Reachable' as in DESIGN.md: valid UTF-8 data directory, no chunk saved onto the catalogue's own files (C87)."
  },
  {
   "property": "C129",
   "status": "partial",
   "theorems": [
    "Flu.C129_refuted",
    "Flu.C129_dies",
    "Flu.C129_window",
    "Flu.C129_possible",
    "Flu.C129_partial"
   ],
   "note": "C129_statement is refuted (C129_refuted), from C129_dies, which holds of every file with a full first chunk of more than 2024 bytes whose length is not 1000 plus a multiple of 1024. Missing in C129_partial: requests that overlap. C129_possible carries the behaviours of one upload with many goroutines (C104, C105) over to the whole daemon; it leaves out changes of the file during the upload. 'Reachable' as in DESIGN.md: valid UTF-8 data directory, no chunk saved onto the catalogue's own files (C87)."
  },
  {
   "property": "C13",
   "status": "partial",
   "theorems": [
    "Flu.C13_get_total_partial",
    "Flu.C13_huge_panics",
    "Flu.C13_refuted"
   ],
   "note": "False for indices >= 2^63, which panic; the proved part covers every index below 2^63."
  },
  {
   "property": "C130",
   "status": "proved",
   "theorems": [
    "Flu.C130_daemon",
    "Flu.C130_help",
    "Flu.C130_usage",
    "Flu.C130_command",
    "Flu.C130_alone",
    "Flu.C130_no"
   ],
   "note": "flag.Parse and strconv.ParseBool are modelled from the Go library for the one flag of the program; net.ParseIP is an arbitrary function; the exit status after help is left open."
  },
  {
   "property": "C131",
   "status": "proved",
   "theorems": [
    "Flu.C131_all",
    "Flu.C131_exact",
    "Flu.C131_network",
    "Flu.C131_daemon"
   ],
   "note": "Spec.Halts names the step of the download and what the network does in it (C131_all: these are all the steps that end the daemon, whatever the disk does); Spec.Reason is stated on what the catalogue shows. Each catalogue call is one step. 'Reachable' as in DESIGN.md: valid UTF-8 data directory, no chunk saved onto the catalogue's own files (C87)."
  },
  {
   "property": "C132",
   "status": "proved",
   "theorems": [
    "Flu.C132_status",
    "Flu.C132_unsent",
    "Flu.C132_share",
    "Flu.C132_list",
    "Flu.C132_get",
    "Flu.C132_clean",
    "Flu.C132_chims",
    "Flu.C132_remote"
   ],
   "note": "The texts of errors are not modelled; that net/rpc turns the end of the daemon into an error of the call, and that a Go panic ends a process with status 2, are taken from the library. The status after help is a parameter. 'Reachable' as in DESIGN.md: valid UTF-8 data directory, no chunk saved onto the catalogue's own files (C87)."
  },
  {
   "property": "C133",
   "status": "partial",
   "theorems": [
    "Flu.C133_refuted",
    "Flu.C133_hashless_partial",
    "Flu.C133_ends_iff_partial",
    "Flu.C133_disk_partial",
    "Flu.C133_session_partial"
   ],
   "note": "The first half is refuted of the code: get, chims, and list with an address, sent without a hash, always end the daemon (the missing pointer is read; nothing on the disk changes). Proved instead: exactly those requests and the ones of C124 end it, and the second half. That gob leaves out nil pointers is taken from the library. 'Reachable' as in DESIGN.md: valid UTF-8 data directory, no chunk saved onto the catalogue's own files (C87)."
  },
  {
   "property": "C134",
   "status": "proved",
   "theorems": [
    "Flu.C134_one",
    "Flu.C134_refused",
    "Flu.C134_first"
   ],
   "note": "Each call of the catalogue is one step (justified by C110). 'Reachable' as in DESIGN.md: valid UTF-8 data directory, no chunk saved onto the catalogue's own files (C87). Descriptions with chunk size 0 or more than 2^63 bytes: C37, C124."
  },
  {
   "property": "C135",
   "status": "proved",
   "theorems": [
    "Flu.C135_owned",
    "Flu.C135_empty",
    "Flu.C135_listed",
    "Flu.C135_start",
    "Flu.C135_exact",
    "Flu.C135_limit"
   ],
   "note": "Reachable as in DESIGN.md: valid UTF-8 data directory, no chunk saved onto the catalogue's own files (C87). Other files that somebody puts into the data directory are not spoken of. 'Reachable' as in DESIGN.md: valid UTF-8 data directory, no chunk saved onto the catalogue's own files (C87)."
  },
  {
   "property": "C136",
   "status": "proved",
   "theorems": [
    "Flu.C136_share",
    "Flu.C136_register",
    "Flu.C136_unshare",
    "Flu.C136_stays",
    "Flu.C136_stuck",
    "Flu.C136_register_possible",
    "Flu.C136_share_possible",
    "Flu.C136_unshare_possible"
   ],
   "note": "Each outcome does occur, for every new (or shown) file: the _possible theorems; that of a share which leaves an unreadable progress is C81_share_disk_full. Reachable as in DESIGN.md: valid UTF-8 data directory, no chunk saved onto the catalogue's own files (C87). A write that fails may have written any beginning of its data. 'Reachable' as in DESIGN.md: valid UTF-8 data directory, no chunk saved onto the catalogue's own files (C87)."
  },
  {
   "property": "C137",
   "status": "proved",
   "theorems": [
    "Flu.C137_served",
    "Flu.C137_opened",
    "Flu.C137_short",
    "Flu.C137_finishes",
    "Flu.C137_search"
   ],
   "note": "Can be handled: there is a schedule in which its goroutine alone moves. That a response which has been handed over reaches its search is another matter: it may have to wait for the lock of the table (C122). A request for a chunk may never end while the file cannot be read (C131); then the goroutine is left reading, as by itself. The catalogue's calls are single steps (C110)."
  },
  {
   "property": "C138",
   "status": "proved",
   "theorems": [
    "Flu.C138_register",
    "Flu.C138_share",
    "Flu.C138_unshare",
    "Flu.C138_written",
    "Flu.C138_unshare_leaves",
    "Flu.C138_heals",
    "Flu.C138_permanent"
   ],
   "note": "What the failed call leaves in memory is C136; that a state in which a daemon does not work lasts for ever is C120. 'Reachable' as in DESIGN.md: valid UTF-8 data directory, no chunk saved onto the catalogue's own files (C87)."
  },
  {
   "property": "C139",
   "status": "proved",
   "theorems": [
    "Flu.C139_exact",
    "Flu.C139_accepted",
    "Flu.C139_refused",
    "Flu.C139_listed",
    "Flu.C139_starts"
   ],
   "note": "The grammar is specified independently of the decoder (Spec/JsonText, Spec/LaxJson); the decoder is shown to accept these texts and nothing else. The model of encoding/json accepts integers beyond 64 bits, which encoding/json refuses; so for texts with such integers only the refusal of everything outside the grammar carries over. If two keys spell the same hash in different case, either entry may be the one shown."
  },
  {
   "property": "C14",
   "status": "proved",
   "theorems": [
    "Flu.C14_roundtrip",
    "Flu.parse_received"
   ],
   "note": "Any padding and any spare capacity."
  },
  {
   "property": "C140",
   "status": "proved",
   "theorems": [
    "Flu.C140_says",
    "Flu.C140_stray",
    "Flu.C140_saved"
   ],
   "note": "What a progress file says (Spec/ProgressText) is stated on its bytes, independently of the bit set. If two keys of the index spell the same hash in different case, either entry may be the one that counts."
  },
  {
   "property": "C141",
   "status": "proved",
   "theorems": [
    "Flu.C141_index",
    "Flu.C141_progress"
   ],
   "note": "For the modelled JSON writer of the standard library (goJson); the formats are those of Spec/LaxJson and Spec/ProgressText, stated independently of the program. 'Reachable' as in DESIGN.md: valid UTF-8 data directory, no chunk saved onto the catalogue's own files (C87)."
  },
  {
   "property": "C15",
   "status": "proved",
   "theorems": [
    "Flu.C15_prefix_free",
    "Flu.C15_injective",
    "Flu.C15_kind"
   ],
   "note": ""
  },
  {
   "property": "C16",
   "status": "proved",
   "theorems": [
    "Flu.C16_total",
    "Flu.C16_kind",
    "Flu.C16_panic_occurs"
   ],
   "note": "Exact characterisation of message / error / panic."
  },
  {
   "property": "C17",
   "status": "partial",
   "theorems": [
    "Flu.C17_chunks_partial",
    "Flu.C17_received",
    "Flu.C17_empty_at_256",
    "Flu.C17_refuted"
   ],
   "note": "The full statement C17_statement is false of the code and refuted; proved exactly up to 255 entries, with the exact result beyond."
  },
  {
   "property": "C18",
   "status": "proved",
   "theorems": [
    "Flu.C18_names"
   ],
   "note": "Up to 65535 files per listing; beyond that parse_received gives the exact (truncated) result."
  },
  {
   "property": "C19",
   "status": "proved",
   "theorems": [
    "Flu.C19_roundtrip",
    "Flu.C19_split",
    "Flu.C19_size",
    "Flu.C19_sender",
    "Flu.C19_parse_panics_iff",
    "Flu.C19_split_panics_iff"
   ],
   "note": ""
  },
  {
   "property": "C20",
   "status": "partial",
   "theorems": [
    "Flu.C20_panics_iff_partial",
    "Flu.C20_refuted",
    "Flu.C20_total"
   ],
   "note": "Refuted in full; C20_panics_iff_partial is the exact set of fatal datagram sequences. Allocation of the announced size is not modelled."
  },
  {
   "property": "C21",
   "status": "proved",
   "theorems": [
    "Flu.C21_roundtrip",
    "Flu.C21_accepts",
    "Flu.C21_injective",
    "Flu.C21_isBlank",
    "Flu.C21_fromSlice",
    "Flu.C21_unchecked"
   ],
   "note": ""
  },
  {
   "property": "C22",
   "status": "proved",
   "theorems": [
    "Flu.C22_sound",
    "Flu.C22_complete",
    "Flu.C22_error"
   ],
   "note": ""
  },
  {
   "property": "C23",
   "status": "proved",
   "theorems": [
    "Flu.C23_describes",
    "Flu.C23_reads",
    "Flu.C23_complete"
   ],
   "note": "Sections shorter than 4 GiB (Offset panics above), no read errors while reading back; transient errors while hashing are covered."
  },
  {
   "property": "C24",
   "status": "partial",
   "theorems": [
    "Flu.C24_terminates_partial",
    "Flu.C24_hangs",
    "Flu.C24_refuted"
   ],
   "note": "False for reads that keep failing; proved whenever more than n reads succeed."
  },
  {
   "property": "C25",
   "status": "proved",
   "theorems": [
    "Flu.C25_count",
    "Flu.C25_chunk",
    "Flu.C25_partition"
   ],
   "note": ""
  },
  {
   "property": "C26",
   "status": "proved",
   "theorems": [
    "Flu.C26_share"
   ],
   "note": "For every reachable catalogue (any history with faults, crashes, restarts) and every fault list under which the call returns ok; file sizes below 2^63. 'Reachable' as in DESIGN.md: valid UTF-8 data directory, no chunk saved onto the catalogue's own files (C87)."
  },
  {
   "property": "C27",
   "status": "proved",
   "theorems": [
    "Flu.C27_own",
    "Flu.C27_distinct",
    "Flu.C27_share_again",
    "Flu.C27_share_again_error",
    "Flu.C27_register_again"
   ],
   "note": "'Reachable' as in DESIGN.md: valid UTF-8 data directory, no chunk saved onto the catalogue's own files (C87)."
  },
  {
   "property": "C28",
   "status": "proved",
   "theorems": [
    "Flu.C28_unshare",
    "Flu.C28_unknown"
   ],
   "note": "'Reachable' as in DESIGN.md: valid UTF-8 data directory, no chunk saved onto the catalogue's own files (C87)."
  },
  {
   "property": "C29",
   "status": "proved",
   "theorems": [
    "Flu.C29_register",
    "Flu.C27_register_again"
   ],
   "note": "Positive chunk size, size below 2^63 (C37 covers the rest). 'Reachable' as in DESIGN.md: valid UTF-8 data directory, no chunk saved onto the catalogue's own files (C87)."
  },
  {
   "property": "C30",
   "status": "proved",
   "theorems": [
    "Flu.C30_restart",
    "Flu.C30_same",
    "Flu.C30_list"
   ],
   "note": "Fault-free histories of any length; paths are compared after the JSON codec (lossy for non-UTF-8, see C30_restart), equal for paths that survive it. 'Reachable' as in DESIGN.md: valid UTF-8 data directory, no chunk saved onto the catalogue's own files (C87)."
  },
  {
   "property": "C31",
   "status": "partial",
   "theorems": [
    "Flu.C31_partial",
    "Flu.C31_refuted",
    "Flu.C31_forever",
    "Flu.C31_register_crash",
    "Flu.C31_share_crash",
    "Flu.C31_unshare_crash",
    "Flu.C31_torn_forever",
    "Flu.C31_torn_crash"
   ],
   "note": "The full statement C31_statement is false of the code and refuted for every environment; C31_forever shows the damage is permanent, C31_torn_forever that a torn index is fatal; proved for deaths between calls, in read-only calls and in SaveChunk before the progress write. 'Reachable' as in DESIGN.md: valid UTF-8 data directory, no chunk saved onto the catalogue's own files (C87)."
  },
  {
   "property": "C32",
   "status": "proved",
   "theorems": [
    "Flu.C32_save"
   ],
   "note": "Every fault list: each system call may fail or the process may die at it, after any part of its effect. 'Reachable' as in DESIGN.md: valid UTF-8 data directory, no chunk saved onto the catalogue's own files (C87)."
  },
  {
   "property": "C33",
   "status": "proved",
   "theorems": [
    "Flu.C33_download",
    "Flu.C33_start",
    "Flu.C33_step",
    "Flu.C33_any_order",
    "Flu.C33_content",
    "Flu.C33_complete",
    "Flu.C33_empty"
   ],
   "note": "Non-empty files; C33_empty shows that the empty file is complete at once and never created. Step theorems hold for every fault list when the call returns. 'Reachable' as in DESIGN.md: valid UTF-8 data directory, no chunk saved onto the catalogue's own files (C87)."
  },
  {
   "property": "C34",
   "status": "proved",
   "theorems": [
    "Flu.C34_complete",
    "Flu.C34_missing",
    "Flu.C34_agree",
    "Flu.C34_total"
   ],
   "note": "MissingChunks up to 65536 chunks (16-bit chunk numbers). 'Reachable' as in DESIGN.md: valid UTF-8 data directory, no chunk saved onto the catalogue's own files (C87)."
  },
  {
   "property": "C35",
   "status": "proved",
   "theorems": [
    "Flu.C35_reader",
    "Flu.C35_serves",
    "Flu.C35_absent",
    "Flu.C35_unknown",
    "Flu.C35_harmless"
   ],
   "note": "'Reachable' as in DESIGN.md: valid UTF-8 data directory, no chunk saved onto the catalogue's own files (C87)."
  },
  {
   "property": "C36",
   "status": "partial",
   "theorems": [
    "Flu.C36_partial",
    "Flu.C36_honest",
    "Flu.C36_anywhere",
    "Flu.C36_refuted"
   ],
   "note": "False of the code for names with slashes or dot-dot; C36_anywhere shows a peer can choose any absolute path; true for plain names, which honest peers send (C36_honest). 'Reachable' as in DESIGN.md: valid UTF-8 data directory, no chunk saved onto the catalogue's own files (C87)."
  },
  {
   "property": "C37",
   "status": "partial",
   "theorems": [
    "Flu.C37_partial",
    "Flu.C37_refuted",
    "Flu.C37_panics_iff",
    "Flu.C37_forever",
    "Flu.C37_honest"
   ],
   "note": "False of the code and refuted; C37_panics_iff gives the exact set of fatal metadata; proved for all others. Memory exhaustion is not modelled. 'Reachable' as in DESIGN.md: valid UTF-8 data directory, no chunk saved onto the catalogue's own files (C87)."
  },
  {
   "property": "C38",
   "status": "proved",
   "theorems": [
    "Flu.C38_list",
    "Flu.C38_total"
   ],
   "note": "'Reachable' as in DESIGN.md: valid UTF-8 data directory, no chunk saved onto the catalogue's own files (C87)."
  },
  {
   "property": "C39",
   "status": "proved",
   "theorems": [
    "Flu.C39_clean",
    "Flu.C39_again",
    "Flu.C39_total",
    "Flu.C39_faults"
   ],
   "note": "Over every reachable catalogue and map order, provided no shared file is one of the catalogue's own files. C39_faults covers failing operating system calls: a successful Clean then keeps only sound entries but may drop a sound one whose file could not be read. 'Reachable' as in DESIGN.md: valid UTF-8 data directory, no chunk saved onto the catalogue's own files (C87)."
  },
  {
   "property": "C40",
   "status": "proved",
   "theorems": [
    "Flu.C40_order",
    "Flu.C40_stream"
   ],
   "note": "Every window, acknowledgement schedule and read or write failure; the file does not change during the upload; chunks below 4 GiB."
  },
  {
   "property": "C41",
   "status": "proved",
   "theorems": [
    "Flu.C41_window",
    "Flu.C41_full"
   ],
   "note": "C41_full: the window is also kept full."
  },
  {
   "property": "C42",
   "status": "proved",
   "theorems": [
    "Flu.C42_delivers"
   ],
   "note": "Reliable link as a queue; every interleaving, also with failing reads and writes and with the receiver giving up."
  },
  {
   "property": "C43",
   "status": "proved",
   "theorems": [
    "Flu.C43_delivers",
    "Flu.C43_assembled",
    "Flu.C43_first_again"
   ],
   "note": ""
  },
  {
   "property": "C44",
   "status": "partial",
   "theorems": [
    "Flu.C44_partial",
    "Flu.C44_refuted",
    "Flu.C44_loss"
   ],
   "note": "Refuted for every hash function that tells two given byte strings apart; C44_loss gives the general class: any lost non-zero byte. C44_partial says what the printed check means. 'Reachable' as in DESIGN.md: valid UTF-8 data directory, no chunk saved onto the catalogue's own files (C87)."
  },
  {
   "property": "C45",
   "status": "partial",
   "theorems": [
    "Flu.C45_partial",
    "Flu.C45_refuted",
    "Flu.C45_stalls"
   ],
   "note": "Refuted; every execution is finite (explicit bound, no fairness needed) and delivers unless CanStall holds, and whenever CanStall holds some execution without faults stops with the receiver waiting, so the condition is exact."
  },
  {
   "property": "C46",
   "status": "partial",
   "theorems": [
    "Flu.C46_partial",
    "Flu.C46_refuted",
    "Flu.C46_full_chunk"
   ],
   "note": "Refuted; C46_partial is exact: the worker exits iff exactly one read reported the end, and hangs for ever after two or more."
  },
  {
   "property": "C47",
   "status": "partial",
   "theorems": [
    "Flu.C47_partial",
    "Flu.C47_refuted",
    "Flu.C41_full"
   ],
   "note": "Refuted; exact excess given."
  },
  {
   "property": "C48",
   "status": "partial",
   "theorems": [
    "Flu.C48_new_partial",
    "Flu.C48_refuted",
    "Flu.C48_stale",
    "Flu.C48_serves"
   ],
   "note": "Refuted; C48_stale gives exactly what is sent to an address already in the table. 'Reachable' as in DESIGN.md: valid UTF-8 data directory, no chunk saved onto the catalogue's own files (C87)."
  },
  {
   "property": "C49",
   "status": "proved",
   "theorems": [
    "Flu.C49_distinct",
    "Flu.C49_window"
   ],
   "note": ""
  },
  {
   "property": "C50",
   "status": "proved",
   "theorems": [
    "Flu.C50_only_answers",
    "Flu.C50_lookup",
    "Flu.C50_listing"
   ],
   "note": "Every interleaving of any number of goroutines; also that nothing sent to a request is lost or repeated."
  },
  {
   "property": "C51",
   "status": "partial",
   "theorems": [
    "Flu.C51_returns_iff_partial",
    "Flu.C51_registers_iff",
    "Flu.C51_wedged",
    "Flu.C51_refuted"
   ],
   "note": "Refuted; the exact condition: a discovery can still return iff no handler sits on the table lock with a full channel nobody reads; once so, for ever."
  },
  {
   "property": "C52",
   "status": "proved",
   "theorems": [
    "Flu.C52_reply"
   ],
   "note": "Including that nothing changes; the chunk list is specified as the maximal runs of held chunks per requested range. 'Reachable' as in DESIGN.md: valid UTF-8 data directory, no chunk saved onto the catalogue's own files (C87)."
  },
  {
   "property": "C53",
   "status": "proved",
   "theorems": [
    "Flu.C53_listing",
    "Flu.C53_metadata",
    "Flu.C53_wrong",
    "Flu.C53_crashes"
   ],
   "note": "End to end from the asked host's catalogue to the asking host's result, for every catalogue and reply size; entries are specified by Describes (base name, hash, sizes, number of chunks held). 'Reachable' as in DESIGN.md: valid UTF-8 data directory, no chunk saved onto the catalogue's own files (C87)."
  },
  {
   "property": "C54",
   "status": "partial",
   "theorems": [
    "Flu.C54_fatal_iff_partial",
    "Flu.C54_refuted",
    "Flu.C54_kills",
    "Flu.C54_no_address"
   ],
   "note": "Refuted; C54_fatal_iff_partial is the exact set of fatal datagrams in every state reached without faults. 'Reachable' as in DESIGN.md: valid UTF-8 data directory, no chunk saved onto the catalogue's own files (C87)."
  },
  {
   "property": "C55",
   "status": "proved",
   "theorems": [
    "Flu.C55_hosts",
    "Flu.C55_any_chunk"
   ],
   "note": ""
  },
  {
   "property": "C56",
   "status": "proved",
   "theorems": [
    "Flu.C56_single",
    "Flu.C56_lowest",
    "Flu.C56_completes",
    "Flu.C56_race",
    "Flu.C56_big"
   ],
   "note": "Interleaving model of any number of download goroutines, catalogue calls and other programs with disk faults. C56_single and C56_lowest hold in every run in which nobody else downloads or unshares the file; C56_race and C56_big are the limits the statement names. 'Reachable' as in DESIGN.md: valid UTF-8 data directory, no chunk saved onto the catalogue's own files (C87)."
  },
  {
   "property": "C57",
   "status": "proved",
   "theorems": [
    "Flu.C57_list",
    "Flu.C57_percent",
    "Flu.C57_complete",
    "Flu.C57_empty"
   ],
   "note": "For all counts below 2^63/10000 (no 64-bit overflow). 'Reachable' as in DESIGN.md: valid UTF-8 data directory, no chunk saved onto the catalogue's own files (C87)."
  },
  {
   "property": "C58",
   "status": "proved",
   "theorems": [
    "Flu.C58_forms",
    "Flu.C58_other",
    "Flu.C58_capacity"
   ],
   "note": "Slices modelled with their capacity."
  },
  {
   "property": "C59",
   "status": "proved",
   "theorems": [
    "Flu.C59_ack",
    "Flu.C59_not_ipv4"
   ],
   "note": ""
  },
  {
   "property": "C60",
   "status": "partial",
   "theorems": [
    "Flu.C60_survives_iff_partial",
    "Flu.C60_partial",
    "Flu.C60_panics_iff",
    "Flu.C60_refuted"
   ],
   "note": "C60_survives_iff_partial: the exact condition for the whole command. C60_panics_iff: the exact set of fatal addresses; net.ParseIP is an arbitrary function, the refutation needs it to accept one address that is not IPv4. 'Reachable' as in DESIGN.md: valid UTF-8 data directory, no chunk saved onto the catalogue's own files (C87)."
  },
  {
   "property": "C61",
   "status": "partial",
   "theorems": [
    "Flu.C61_partial",
    "Flu.C61_refuted",
    "Flu.C61_lost"
   ],
   "note": "Refuted in full; C61_lost shows the failure for every fresh download and that FileComplete panics afterwards. 'Reachable' as in DESIGN.md: valid UTF-8 data directory, no chunk saved onto the catalogue's own files (C87)."
  },
  {
   "property": "C62",
   "status": "proved",
   "theorems": [
    "Flu.C62_sends",
    "Flu.C62_panics_iff",
    "Flu.C62_ranges"
   ],
   "note": "net.ParseIP is an arbitrary function; net/rpc and gob are not modelled beyond dropping empty slices."
  },
  {
   "property": "C63",
   "status": "partial",
   "theorems": [
    "Flu.C63_partial",
    "Flu.C63_refuted"
   ],
   "note": "'Reachable' as in DESIGN.md: valid UTF-8 data directory, no chunk saved onto the catalogue's own files (C87)."
  },
  {
   "property": "C64",
   "status": "partial",
   "theorems": [
    "Flu.C64_partial",
    "Flu.C64_refuted",
    "Flu.C64_dies"
   ],
   "note": "Refuted: C64_dies gives the fatal execution for every empty chunk and every window."
  },
  {
   "property": "C65",
   "status": "proved",
   "theorems": [
    "Flu.C65_localIP"
   ],
   "note": ""
  },
  {
   "property": "C66",
   "status": "proved",
   "theorems": [
    "Flu.C66_starts",
    "Flu.C66_refused",
    "Flu.C66_total",
    "Flu.C66_no_host",
    "Flu.C66_no_address",
    "Flu.C66_as_shared"
   ],
   "note": "The answer of the asked host is an arbitrary datagram; C66_as_shared composes with the serving side. Described sizes of 2^63 bytes or more and chunk size 0 are excluded. 'Reachable' as in DESIGN.md: valid UTF-8 data directory, no chunk saved onto the catalogue's own files (C87)."
  },
  {
   "property": "C67",
   "status": "proved",
   "theorems": [
    "Flu.C67_call",
    "Flu.C67_run"
   ],
   "note": "Restarts are covered by C30/C31, not here. 'Reachable' as in DESIGN.md: valid UTF-8 data directory, no chunk saved onto the catalogue's own files (C87)."
  },
  {
   "property": "C68",
   "status": "partial",
   "theorems": [
    "Flu.C68_partial",
    "Flu.C68_refuted",
    "Flu.C68_text",
    "Flu.C68_healthy"
   ],
   "note": "False of the code for names that are not UTF-8; C68_partial is exact: everything but the path always survives, the path survives iff it is text (specified independently through RFC 3629). Uses goJson, a byte-level model of Go's JSON encoder and decoder proved to satisfy the laws the other catalogue theorems assume. 'Reachable' as in DESIGN.md: valid UTF-8 data directory, no chunk saved onto the catalogue's own files (C87)."
  },
  {
   "property": "C69",
   "status": "partial",
   "theorems": [
    "Flu.C69_partial",
    "Flu.C69_refuted",
    "Flu.C69_lost"
   ],
   "note": "False of the code: C69_lost shows the loss for every directory whose name is not UTF-8; C69_partial proves the claim for all others. Fault-free runs."
  },
  {
   "property": "C70",
   "status": "proved",
   "theorems": [
    "Flu.C70_one",
    "Flu.C70_every_host",
    "Flu.C70_progress",
    "Flu.C70_daemon"
   ],
   "note": "Interleaving model of DownloadLoop; fairness of the lock is not needed for what is claimed and not modelled. 'Reachable' as in DESIGN.md: valid UTF-8 data directory, no chunk saved onto the catalogue's own files (C87)."
  },
  {
   "property": "C71",
   "status": "partial",
   "theorems": [
    "Flu.C71_partial",
    "Flu.C71_refuted",
    "Flu.C71_forever",
    "Flu.C71_blocks"
   ],
   "note": "False of the code: C71_forever gives the datagrams for every file and chunk, C71_blocks shows that meanwhile no other download can fetch anything. C71_partial: five seconds of silence end the transfer, whatever was sent before. 'Reachable' as in DESIGN.md: valid UTF-8 data directory, no chunk saved onto the catalogue's own files (C87)."
  },
  {
   "property": "C72",
   "status": "partial",
   "theorems": [
    "Flu.C72_saved_chunks_stay_partial",
    "Flu.C72_since_registered_partial",
    "Flu.C72_refuted",
    "Flu.C72_lost",
    "Flu.C72_never_overstated"
   ],
   "note": "False of the code: C72_lost gives the losing schedule for every daemon whose progress for the file is not in memory (after a restart). The partial theorems: nothing is lost once a chunk was saved with no look-up in progress, or since the download was registered. C72_never_overstated is the second half of the claim, in full, from fault-free states. 'Reachable' as in DESIGN.md: valid UTF-8 data directory, no chunk saved onto the catalogue's own files (C87)."
  },
  {
   "property": "C73",
   "status": "partial",
   "theorems": [
    "Flu.C73_read_between_calls_partial",
    "Flu.C73_since_registered_partial",
    "Flu.C73_read_during_save",
    "Flu.C73_refuted",
    "Flu.C73_killed"
   ],
   "note": "False of the code: a look-up that reads fewer than 8 bytes of a progress file being rewritten panics, C73_read_during_save is exact. The partial theorems: reads between calls are harmless, and none happen since the download was registered. 'Reachable' as in DESIGN.md: valid UTF-8 data directory, no chunk saved onto the catalogue's own files (C87)."
  },
  {
   "property": "C74",
   "status": "proved",
   "theorems": [
    "Flu.C74_content",
    "Flu.C74_peers",
    "Flu.C74_host_to_host",
    "Flu.C74_shared"
   ],
   "note": "Peers are honest in the sense of Spec.Assembles: what the receiver assembles, if anything, is the chunk asked for; C74_peers shows that the packets of a chunk in any order have this property. Existing longer files of that name and empty files are excluded in the claim (C33_content and C33_empty say what happens to them). 'Reachable' as in DESIGN.md: valid UTF-8 data directory, no chunk saved onto the catalogue's own files (C87)."
  },
  {
   "property": "C75",
   "status": "proved",
   "theorems": [
    "Flu.C75_call",
    "Flu.C75_clean",
    "Flu.C75_start",
    "Flu.C75_save"
   ],
   "note": "The download path itself is chosen by a peer's description and can leave the download directory; that is C36, not this claim. 'Reachable' as in DESIGN.md: valid UTF-8 data directory, no chunk saved onto the catalogue's own files (C87)."
  },
  {
   "property": "C76",
   "status": "partial",
   "theorems": [
    "Flu.C76_partial",
    "Flu.C76_refuted",
    "Flu.C76_overwrites"
   ],
   "note": "False of the code: a peer can announce more bytes than a chunk has and overwrite what follows; C76_overwrites gives the datagrams for every file, chunk and replacement. C76_partial: it holds if no announced size exceeds the chunk size. 'Reachable' as in DESIGN.md: valid UTF-8 data directory, no chunk saved onto the catalogue's own files (C87)."
  },
  {
   "property": "C77",
   "status": "partial",
   "theorems": [
    "Flu.C77_partial",
    "Flu.C77_killed_iff_partial",
    "Flu.C77_result",
    "Flu.C77_refuted"
   ],
   "note": "False of the code: a datagram shorter than a header that arrives after the end kills the daemon (C77_killed_iff_partial is exact, C77_refuted the instance). C77_result is the second half of the claim, in full: the result is that of the sequential model on what was read."
  },
  {
   "property": "C78",
   "status": "partial",
   "theorems": [
    "Flu.C78_partial",
    "Flu.C78_leaks_partial",
    "Flu.C78_rests",
    "Flu.C78_honest",
    "Flu.C78_refuted"
   ],
   "note": "False of the code: after the end nobody empties the channel of ten packets. C78_partial is exact (thread ends iff at most nine datagrams came after the end marker, socket closes iff at most ten); C78_honest: honest senders always send more, for chunks of up to about one megabyte."
  },
  {
   "property": "C79",
   "status": "proved",
   "theorems": [
    "Flu.C79_answers",
    "Flu.C79_after"
   ],
   "note": "Relational: both runs see the same faults and the same network. Timing is not modelled."
  },
  {
   "property": "C80",
   "status": "proved",
   "theorems": [
    "Flu.C80_rehash",
    "Flu.C80_works"
   ],
   "note": "Looking up without the lock is treated in C72 and C73. 'Reachable' as in DESIGN.md: valid UTF-8 data directory, no chunk saved onto the catalogue's own files (C87)."
  },
  {
   "property": "C81",
   "status": "partial",
   "theorems": [
    "Flu.C81_partial",
    "Flu.C81_share_disk_full",
    "Flu.C81_refuted"
   ],
   "note": "False of the code: if writing the index fails while a file is shared, a record without progress stays in memory; C81_share_disk_full shows for every daemon and new file that listing then fails, the file cannot be shared again, and a peer's listing request ends the daemon. C81_partial: reading calls under all faults, and writing calls when the disk works. 'Reachable' as in DESIGN.md: valid UTF-8 data directory, no chunk saved onto the catalogue's own files (C87)."
  },
  {
   "property": "C82",
   "status": "partial",
   "theorems": [
    "Flu.C82_partial",
    "Flu.C82_refuted",
    "Flu.C82_exactly",
    "Flu.C82_uploads",
    "Flu.C82_index",
    "Flu.C82_peers_alone",
    "Flu.C82_no_change_partial",
    "Flu.C82_local_partial"
   ],
   "note": "Refuted for the uploads (a request for a chunk from a new address together with an acknowledgement, from peers alone) and for the index (a share together with a peer's question). C82_exactly: these two and no others. C82_no_change_partial: a table that no running goroutine changes is safe; C82_local_partial: shares, listings and running downloads together are safe."
  },
  {
   "property": "C83",
   "status": "proved",
   "theorems": [
    "Flu.C83_no_circle",
    "Flu.C83_someone_moves",
    "Flu.C83_all_finish"
   ],
   "note": "The progress files' locks are taken to be one lock; goroutines are the sequences of lock and map operations read off the code."
  },
  {
   "property": "C84",
   "status": "proved",
   "theorems": [
    "Flu.C84_recorded",
    "Flu.C84_same",
    "Flu.C84_download",
    "Flu.C84_library",
    "Flu.C84_model"
   ],
   "note": "C84_library proves that the byte loop of the standard library computes the clean path; links in the file system are not modelled; the rules are those of the documentation of filepath.Clean, stated as an equivalence on strings (Spec.SamePlace). 'Reachable' as in DESIGN.md: valid UTF-8 data directory, no chunk saved onto the catalogue's own files (C87)."
  },
  {
   "property": "C85",
   "status": "partial",
   "theorems": [
    "Flu.C85_partial",
    "Flu.C85_honest_partial",
    "Flu.C85_refuted",
    "Flu.C85_wrong_bytes"
   ],
   "note": "C85_wrong_bytes: in every chunk of at least 3048 bytes, two requests and two acknowledgements suffice. C85_partial gives the whole stream (consecutive pieces), not only packet by packet."
  },
  {
   "property": "C86",
   "status": "partial",
   "theorems": [
    "Flu.C86_partial",
    "Flu.C86_names",
    "Flu.C86_overwrites",
    "Flu.C86_refuted"
   ],
   "note": "C86_overwrites: in every state with a file where a download of that name would go, any unknown file offered under that name overwrites its beginning. 'Reachable' as in DESIGN.md: valid UTF-8 data directory, no chunk saved onto the catalogue's own files (C87)."
  },
  {
   "property": "C87",
   "status": "partial",
   "theorems": [
    "Flu.C87_partial",
    "Flu.C87_home",
    "Flu.C87_daemon_partial",
    "Flu.C87_general",
    "Flu.C87_blocks",
    "Flu.C87_reads_any",
    "Flu.C87_refuted"
   ],
   "note": "C87_home and C87_daemon_partial: the directories main.go chooses meet the conditions for every home directory with an absolute path in valid UTF-8. C87_partial is for the JSON of encoding/json (goJson); C87_general for any JSON library and any set of paths. C87_reads_any: one registered name and one saved chunk, then a restart. C87_partial, C87_general and C87_refuted do not assume that no chunk is saved onto the catalogue's own files; they show it. 'Reachable' as in DESIGN.md: valid UTF-8 data directory, no chunk saved onto the catalogue's own files (C87)."
  },
  {
   "property": "C88",
   "status": "proved",
   "theorems": [
    "Flu.C88_nothing_changes",
    "Flu.C88_reachable",
    "Flu.C88_answers",
    "Flu.C88_daemon"
   ],
   "note": "'The same about every file' is every field the catalogue returns for every hash. What datagrams can do is crash the daemon (C37, C53, C54) or make it read files it shares. Source addresses can be forged, which the model leaves open: an address is what the datagram claims. 'Reachable' as in DESIGN.md: valid UTF-8 data directory, no chunk saved onto the catalogue's own files (C87)."
  },
  {
   "property": "C89",
   "status": "partial",
   "theorems": [
    "Flu.C89_partial",
    "Flu.C89_local_partial",
    "Flu.C89_remote_partial",
    "Flu.C89_prints",
    "Flu.C89_forged",
    "Flu.C89_dies",
    "Flu.C89_refuted",
    "Flu.C89_chims",
    "Flu.C89_chims_prints",
    "Flu.C89_hosts",
    "Flu.C89_clean_partial"
   ],
   "note": "C89_prints and C89_chims_prints say exactly which results are printed. C89_forged shows the ambiguity for every pair of entries with the same name; the name used in C89_refuted is short enough to arrive over the network. C89_clean_partial assumes absolute paths (C84)."
  },
  {
   "property": "C90",
   "status": "partial",
   "theorems": [
    "Flu.C90_stuck",
    "Flu.C90_partial",
    "Flu.C90_refuted"
   ],
   "note": "C90_stuck is the negative part for every state, host and run; C90_partial the positive part for one host that has the lowest missing chunk. Files of up to 65536 chunks; larger ones are in C56. 'Reachable' as in DESIGN.md: valid UTF-8 data directory, no chunk saved onto the catalogue's own files (C87)."
  },
  {
   "property": "C91",
   "status": "partial",
   "theorems": [
    "Flu.C91_shared_partial",
    "Flu.C91_clean_partial",
    "Flu.C91_clean_stays_partial",
    "Flu.C91_lie",
    "Flu.C91_refuted"
   ],
   "note": "Positive for shared files and after clean; for downloads from peers that send the right chunks see C74. C91_lie covers every hash and every non-empty content whose hash is another one. 'Reachable' as in DESIGN.md: valid UTF-8 data directory, no chunk saved onto the catalogue's own files (C87)."
  },
  {
   "property": "C92",
   "status": "partial",
   "theorems": [
    "Flu.C92_seen",
    "Flu.C92_partial",
    "Flu.C92_collects",
    "Flu.C92_refuted"
   ],
   "note": "C92_seen is the exact result for every number of runs; C92_refuted is stated for all hosts and fails for one that has every other chunk of 256. Loss, repetition and order of answers are the network's; C92_collects holds for every list of arriving messages. 'Reachable' as in DESIGN.md: valid UTF-8 data directory, no chunk saved onto the catalogue's own files (C87)."
  },
  {
   "property": "C93",
   "status": "partial",
   "theorems": [
    "Flu.C93_start",
    "Flu.C93_homeless",
    "Flu.C93_dies",
    "Flu.C93_death",
    "Flu.C93_never",
    "Flu.C93_partial",
    "Flu.C93_refuted"
   ],
   "note": "C93_partial: the statement for installations where the downloads directory exists; C93_refuted: its negation for every home directory where it does not. Directories are a predicate next to the file system: a file can only be created in a directory that exists (Spec.Housed); that nobody else touches the file is part of Spec.Lawful. Reachable catalogues are those of Reach (no chunk saved onto the catalogue's own files). 'Reachable' as in DESIGN.md: valid UTF-8 data directory, no chunk saved onto the catalogue's own files (C87)."
  },
  {
   "property": "C94",
   "status": "partial",
   "theorems": [
    "Flu.C94_port",
    "Flu.C94_partial",
    "Flu.C94_second",
    "Flu.C94_harm",
    "Flu.C94_lasts",
    "Flu.C94_alone_partial",
    "Flu.C94_lost",
    "Flu.C94_refuted"
   ],
   "note": "C94_partial is the exact condition for commands, C94_port the part about datagrams. C94_alone_partial: a daemon that is alone always gets socket and port, whatever earlier ones left behind. All daemons run as one user; a process that ends for other reasons is a step that can happen at any time. C94_lost is about fault-free catalogues as in DESIGN.md (CleanReach). 'Reachable' as in DESIGN.md: valid UTF-8 data directory, no chunk saved onto the catalogue's own files (C87)."
  },
  {
   "property": "C95",
   "status": "proved",
   "theorems": [
    "Flu.C95_cut",
    "Flu.C95_resumes",
    "Flu.C95_itself",
    "Flu.C95_renamed"
   ],
   "note": "C95_cut gives the state on disk after the interruption, which is a hypothesis of C95_resumes; the file fits 65536 chunks, and nothing longer than it was at its path before. The resumed download is alone and meets a host that answers. 'Reachable' as in DESIGN.md: valid UTF-8 data directory, no chunk saved onto the catalogue's own files (C87)."
  },
  {
   "property": "C96",
   "status": "partial",
   "theorems": [
    "Flu.C96_partial",
    "Flu.C96_one_partial",
    "Flu.C96_forged",
    "Flu.C96_refuted"
   ],
   "note": "C96_partial is the exact condition, C96_one_partial the common case of a host with one address, C96_forged the part about other hosts. Which address a datagram is sent from is up to the operating system and a parameter here. 'Reachable' as in DESIGN.md."
  },
  {
   "property": "C97",
   "status": "partial",
   "theorems": [
    "Flu.C97_partial",
    "Flu.C97_ends",
    "Flu.C97_search",
    "Flu.C97_other",
    "Flu.C97_refuted",
    "Flu.C66_no_address"
   ],
   "note": "C97_partial is the exact condition for a start; C97_search, C66_no_address and C97_other describe a daemon that loses its addresses later. 'Reachable' as in DESIGN.md: valid UTF-8 data directory, no chunk saved onto the catalogue's own files (C87)."
  },
  {
   "property": "C98",
   "status": "partial",
   "theorems": [
    "Flu.C98_kept",
    "Flu.C98_refused",
    "Flu.C98_partial",
    "Flu.C98_for_ever",
    "Flu.C98_exhausts",
    "Flu.C98_refuted"
   ],
   "note": "refuted as stated: an upload's file is never closed. Exact condition proved: a chunk is sent iff fewer addresses have been answered than there are descriptors; uploads are never forgotten, so refusal lasts until a restart; one peer exhausts any limit up to 65535 with honest requests. The descriptors left for uploads are a parameter; descriptors used by sockets and by the catalogue for the duration of a call are not counted, and the file opened by a refused or repeated request counts as closed 'Reachable' as in DESIGN.md: valid UTF-8 data directory, no chunk saved onto the catalogue's own files (C87)."
  },
  {
   "property": "C99",
   "status": "partial",
   "theorems": [
    "Flu.C99_partial",
    "Flu.C99_download",
    "Flu.C99_ends",
    "Flu.C99_upload",
    "Flu.C99_refuted"
   ],
   "note": "False of the code. C99_download: the goroutine of a download stays in its loop without getting a chunk, and dies at FileComplete, MissingChunks or SaveChunk; C99_ends: no infinite execution in which it takes infinitely many steps while the file stays away. C99_upload: acknowledgements have the same effect whatever the catalogue says. 'Reachable' as in DESIGN.md: valid UTF-8 data directory, no chunk saved onto the catalogue's own files (C87)."
  }
 ]
}

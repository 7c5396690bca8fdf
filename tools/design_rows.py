d("C01 C02 C03 C04 C05 C06 C13", "`Bitset`: words as `List (BitVec 64)`, every method", "abstraction of a bitset to a predicate on indices; refinement of histories of calls by finite sets, induction over the history")
d("C07", "`Bitset`: `Serialize`/`Deserialize` byte by byte", "big-endian codec inverse lemmas")
d("C08 C09 C10 C11", "`Bitset`: the range loops with their 16-bit conversions", "loop invariant against an independent specification of maximal runs (`Spec/Ranges`)")
d("C12", "`BitsetHeap`: heap of backing arrays, slices with offset, length and capacity", "separation invariant over every program that interleaves calls on any number of bitsets")
d("C14 C15 C16 C17 C18", "`Messages`: the `messages` package on byte slices with spare capacity", "parser inverse to serialiser with arbitrary suffix; prefix-freeness; exact case analysis of panics")
d("C19", "`Messages`: `DataPacket`", "direct, exact panic characterisation")
d("C20 C43 C44", "`Receiver`: `downloadChunk` and `recvConnection.go` as a consumer of any sequence of datagrams", "induction over the sequence; exact panic condition; coverage argument for repeated and reordered packets")
d("C21", "`Sha1`: `sha1Hash.go` and the hex codec", "induction over digits")
d("C22 C23 C24", "`Readers`: read loops against arbitrary operating-system choices", "induction over the choices; for the hang, no list of failing reads finishes the loop")
d("C25", "chunk arithmetic of `indexRecord.go`, section readers", "list take/drop algebra, division lemmas")
d("C26 C27 C28 C29 C38", "`Catalogue` over `Disk`, histories in `CatSystem`", "invariant of all reachable states (calls, faults, crashes, restarts, foreign file changes), then per-call theorems")
d("C30", "as C26, restart through the JSON codec", "memory and disk kept in step along fault-free histories (refinement of the restart)")
d("C31", "as C26, process death inside calls", "stuck-state invariant for the refutation; write-order argument for the positive part")
d("C32", "`SaveChunk` with every fault list", "write order: data before progress")
d("C33", "`SaveChunk` as positional overwrite", "invariant over any sequence of saves")
d("C34 C35", "`FileComplete`, `MissingChunks`, `GetChunkReader`", "composition of bitset theorems with the catalogue invariant")
d("C36", "`Paths`: lexical `filepath.Clean`/`Join`/`Abs`, `path.Split`", "algebra of path elements")
d("C37", "`RegisterDownload` on arbitrary metadata", "exact set of fatal metadata; stuck-state invariant")
d("C39 C61", "`Clean`: the `clean` command", "induction over the map order with a frame invariant")
d("C40 C41 C46 C47", "`Sender`: `SenderConnection` and its worker as a transition system", "invariant: what was sent is a prefix of the canonical stream; counting invariant for window and acknowledgements")
d("C42 C45 C64", "`Transfer`: sender, reliable link, receiver", "joint invariant; strictly decreasing measure for termination; explicit executions for the failures")
d("C48 C59", "`Server`: upload table", "exact effect of the handlers")
d("C49 C50 C51", "`Requests`: identifier counter, response table, channels of capacity one and the lock, any number of goroutines", "invariant over all interleavings; exact stuck condition")
d("C52 C53", "`Server`: responders composed with `Catalogue` and `Messages`", "end-to-end composition against run and listing specifications")
d("C54", "`Server`: `HandleMessage` and the loop of `main.go`", "exact set of fatal datagrams in every fault-free state")
d("C55 C65", "`Server`: `getGoodHosts`, `LocalIP`", "direct against a list specification")
d("C56", "`DownloadLoop`: any number of download goroutines, other calls, faults", "invariant over interleavings; explicit schedules for the limits")
d("C57 C58 C60 C62", "`Cli`: display arithmetic with 64-bit wrap, `net.IP` slices with capacity, `Client.Run`", "arithmetic; exact case analysis")
d("C63", "`Paths`, `Cli` and the daemon's working directory", "explicit witness; equality for absolute paths")
d("C66", "`DownloadLoop`: the synchronous part of `StartDownload`", "case analysis of the composed calls, every answer datagram")
d("C67", "`Catalogue`: frame of every call", "induction over calls")
d("C68 C69", "`Json`: byte-level model of `encoding/json`", "codec laws proved for the concrete codec; exact characterisation of surviving strings by an independent UTF-8 specification (`Spec/Utf8`)")
d("C70 C71", "`DownloadLoop` with the transfer lock", "invariant over interleavings; explicit endless datagram sequence")
d("C72 C73", "`Unlocked`: look-ups as three steps between calls, reads during a write", "invariants about one record and its progress file over all interleavings (`CatPoint`); explicit schedules")
d("C74", "`DownloadLoop`, `Catalogue`, `Server`, `Receiver` composed", "invariant over all interleavings with honest peers; composition with sharing and description; existence of a finishing run")
d("C75", "`Catalogue`: every call and start-up, with faults", "Hoare triples for a file outside the catalogue (`CatKeep`)")
d("C76", "`DownloadLoop`, `Receiver`: one transfer with arbitrary datagrams", "size invariant of the receiver; explicit datagrams for the limit")
d("C77 C78", "`RecvThread`: the reading goroutine, its channel and the loop as separate steps", "invariant relating every schedule to the sequential receiver; bound on what fits into the channel; composition with the sender's window invariant")
d("C79", "`Server`, `Catalogue`: every handler of an incoming datagram", "relational Hoare logic (`Side`): two runs side by side")
d("C80", "`Catalogue`: `rehash` with faults", "read-only invariant (`RO`) and evaluation without faults")
d("C81", "`Catalogue`: every call with faults", "errors traced through every step (`Sure`, `bind_err`); explicit fault for the limit")
d("C82 C83","Model/Locks: for every activity of the daemon the set of sequences of lock, unlock, map read and map write operations it may go through; goroutines interleaved at this granularity, a map operation having a beginning and an end; the runtime's check at its beginning","invariant: every goroutine follows a lock order and holds what its remaining sequence needs (okFrom, checked by induction over the sequences); from it mutual exclusion, acyclic waits, progress by induction on the lock order, termination by a measure; explicit runs for the refutations")
d("C84","Model/Paths (Clean, Join, Abs) as used by ShareFile and RegisterDownload","soundness of each rewriting rule for Clean, and completeness: every absolute path rewrites to its normal form, by induction over its elements")
d("C85","Model/SenderMany: one SenderConnection with any number of worker goroutines and kickstarts, interleaved at every single load or store of the position of the reader and of the window counter, and at every read, write and channel operation; the file changes at any moment","invariant on the only goroutine at work; an explicit run for the refutation")
d("C86","Model/DownloadLoop, Model/Catalogue (registerDownload, saveChunk)","invariant over runs of any number of downloads; evaluation of the calls for the refutation")
d("C87","OpenStep in Props/OwnFiles: the steps of Model/CatSystem without the assumption on SaveChunk","Hoare triples for every call with the invariant that all recorded paths, in memory and on disk, satisfy a predicate; evaluation of the calls for the attacks")
d("C88","Model/Server (serveDatagram and all handlers)","relational invariant carried through each handler, read-only Hoare triples of the catalogue calls; induction over the sequence of datagrams")
d("C89","Model/Text: the Sprintf methods byte for byte","texts as lists of lines; lines cannot be confused without line breaks; numerals and hashes are injective")
d("C90","Model/DownloadLoop","invariant over all runs: the record does not change and every round in progress asks for the same chunk")
d("C91","Model/Catalogue, Model/Clean, Model/DownloadLoop","composition of C26, C39 and C86; for downloads the run of C56 with an arbitrary hash")
d("C92","Model/Discovery, Model/Server, Model/Messages, Model/Requests","composition of C52 and C50 with the parser's result for a wrapped count")
d("C93","Model/Main, Model/DownloadLoop, Spec/Dirs","invariant that a file without directory does not exist; composition with C33/C34 for the positive part")
d("C94","Model/Startup, Model/Catalogue","invariant of the machine's processes, socket and port; for lost records, composition of C30 with two runs of ShareFile on one file system")
d("C95","Model/Catalogue, Model/DownloadLoop","composition of the fault analysis of SaveChunk, C30 (restart) and the completion of the download loop (C56)")
d("C96","Model/Server, Model/Discovery","composition of the answer (C52), the address chosen (C65) and the receiving daemon's dispatch")
d("C97","Model/Startup, Model/Server","invariant of executions: without a usable address no process gets past printing it")
d("C98","Model/Descriptors: serveDatagram run with the faults that a full descriptor table causes","uploads table only grows (SKeeps); with two failing opens startUpload returns an error, without it succeeds (C48_serves); induction over the number of requests for exhaustion")
d("C99","Model/DownloadLoop, Model/Server","step lemma: while the record is gone every surviving step of the download decreases its distance to the next look at the catalogue; well-founded induction over infinite executions")
d("C100","Model/Json, Model/Catalogue, Spec/JsonText","completeness of the parser for the grammar by induction on its derivations; store lemmas by induction over the members; the map as the last entries; then Sync as for C30")
d("C101","Model/SenderMany","books: began = stopped + working, ends met = stopped + signal in the channel + signals owed, kept by every step of every goroutine; then case analysis of the states in which nothing can happen")
d("C102","Model/Catalogue, Model/CatSystem, Model/Disk","an operation of the disk that fails says so, and this is kept by the sequencing of operations: a success is one of the run without failures; then C30 for that run; RegisterDownload by following its one dropped error")
d("C103","Model/Receiver, Model/Catalogue","a small calculus that counts the operations of the disk a call needs in a state; SaveChunk is a preparation that uses two or three of them and one write; afterwards C30 or the invariant of an unreadable record (C31_forever)")
d("C104","Model/SenderMany","invariant: the counter is what is outstanding, less what earlier goroutines left, while one goroutine at most is at work; explicit schedules by induction for the unbounded case")
d("C105","Model/SenderMany","invariant: the position stays in the section at each access while one goroutine at most is at work; an explicit schedule, by induction on the length of the chunk, for the panic")
d("C106","Model/Requests","invariant over all interleavings, with ghost counts of the identifiers drawn: identifiers under way are distinct modulo 2^16")
d("C107","Model/Receiver","induction on the datagrams: the buffer has the announced size; an explicit datagram for every size")
d("C108","Model/CatSystem","case analysis over the calls, from the invariant that memory and disk agree after a history without faults")
d("C109","Model/Catalogue","the state after a power loss is reached from the state at the time of the progress file by a change of one user file, so the restart theorem applies; explicit losses for the failures")
d("C110","Model/Steps: the calls that take the lock as sequences of single accesses and single bytes, any number of goroutines","invariant: the state inside a call leads to what the call alone gives; run of the steps equals the call of Model/Catalogue")
d("C111","Model/Steps","for every sequence of steps the files at each moment are those of a crash fault, closed under sequencing; then the invariant of C110")
d("C112","Model/Network: any number of hosts, their answers, their uploads and the links between them","invariant over all runs: every host has part of F, every answer describes F, every upload carries its chunk; composition of C26, C29, C30, C32, C33, C42, C45, C48, C53, C66, C81; spreading by induction on the chunks")
d("C113","Model/Catalogue with Model/Disk's faults","success: each operation that succeeds consumed no failure, composed over the code of each call; return: a Hoare triple for `ends with a result or an error` composed the same way, with the triples of the read-only part giving that the progress read is well formed")
d("C114","Model/Unreliable (Model/Transfer's sender and receiver, plus a step of the network)","safety: only the first packet can be under way before the receiver has it, since the sender waits for an acknowledgement; afterwards any packet of the chunk writes bytes of the chunk. Loss: the run is one of the reliable link with the chunk whose piece is zero, one acknowledgement short; same measure as C45")
d("C115","Model/LossyNet: Model/Network with the links of Model/Unreliable","invariant over all runs: every host has part of its own version of the file, which has the right length and is right or zero at every byte, and every upload carries a chunk of such a version; passed on: C114_corrupts for the first chunk at one host, then induction over the chunks")
d("C116","Model/DownloadLoop","invariants over all runs: what the catalogue shows of the file, and that no download of a complete file gets beyond its test; refuted by the run of C56_race preceded by the steps of a second get")
d("C117","Model/Json, Model/Catalogue","the file on disk is the encoding of an index that agrees with what is shown (invariant of C30); byte-wise order of keys is a total order, so sorting forgets the order of the entries")
d("C118","Model/Daemon","invariant over runs of the whole daemon: every goroutine of a datagram, every upload and every packet on its way is traced back to a request and to a state in which the catalogue had the chunk")
d("C119","Model/Catalogue, Model/Bitset, Model/DownloadLoop","SaveChunk is followed through every pattern of faults to the contents of the disk; the start after it is computed from that; what a prefix of the words says of each chunk and of all of them; the stuck invariant of C31; induction over runs of the download loop")
d("C120","Model/Catalogue, Model/Bitset, Spec/Restart","the start and the listing are computed from the contents of the disk, giving the equivalence for every reachable disk; each writing call is then followed up to each of its operations, and the equivalence applied to the disk it leaves")
d("C121","Model/LiveShare, Model/Readers, Model/Catalogue, Model/DownloadLoop","the loop of `HashFile` with an arbitrary content of the file at every read, by induction over the reads; the rest of the call as for C26; the download by C74 for the beginning of the later content")
d("C122","Model/Linked, Daemon, Requests","invariants of the linked runs: every message in the hands of a goroutine came in a datagram; the request of a download's search never changes; steps of the table lifted to the daemon")
d("C123","Model/DownloadLoop, Server","runs restricted to the steps that open no socket (Spec.AwayStep); a measure that every step of the goroutine lowers; invariants of C116")
d("C124","Model/Commands, Cli, Text, Clean, DownloadLoop","clean: the progress of every listed record is in memory (Cached), so Rehash returns nil only where UnshareFile fails too; get: C37's fatal metadata, C16's overruns; list: C60; share: C113")
d("C125","Model/CleanMany","a step relation over any number of Clean goroutines, one catalogue call per step; invariants: what a listing took for complete is still complete (progress only grows), no goroutine is about to remove the file; a nil hash means that the record was not there and without additions it does not come back")
d("C126","Model/LiveUpload, Model/Sender, Model/Receiver","every read finds its own content; invariant: the reader stands where the packets sent so far end; the downloader's buffer is what was received, cut off at the announced size or filled up with zeros; the three bad cases by explicit runs for general contents")
d("C127","Model/Daemon, Model/SenderMany","counting along the runs of the whole daemon: every request is held by at most one handler or waiting upload, every acknowledgement by at most one handler, a packet leaves only for one of them or within the window; the flood by an explicit run, with induction over the window")
d("C128","Model/Daemon, Model/Server, Model/SenderMany","invariants of the runs of the whole daemon: the message of every handler was parsed from a datagram that came; an upload to an address with one request satisfies the invariant of C105; C54 at the present catalogue for the handlers; C50 for the searches")
d("C129","Model/Daemon, Model/SenderMany, Model/Catalogue","simulation: every step of an upload is a step of the daemon, arrivals of requests are runs of a handler through Contains, GetChunkReader and kickstart, the announced hash and size are replaced by those of the chunk; then C104 and C105; the positive part by the invariant of C105 along the runs of the daemon")
d("C130","Model/Flags, Model/Cli","the outcome of parsing one argument as an iff for each of its forms (the cut at the equals sign by induction), the run over all arguments as a split into settings and the rest, unique by induction; commands by C62")
d("C131","Model/DownloadLoop, Model/Daemon, Model/Receiver, Model/ListCommand","case analysis over the places of a download; for each the call of the catalogue on a clean state (C30, C34), the description through the outcome of parsing and registering, the chunk by induction over the datagrams to its end; the invariant DLInv for a download that is alone")
d("C132","Model/Process (over Flags, Cli, Commands, Text)","composition of C130 (which request), the methods of the daemon on clean states (C26, C38, C66, C81, C108, C124, C39) and C89 (which answers can be printed); that share and get answer with what the catalogue then shows by evaluation")
d("C133","Model/Rpc (over Commands)","every request lacks a hash it needs or is one the command line could send; the former by evaluation, the latter by C124; sequences by induction with C124_goes_on")
d("C134","Model/DownloadLoop","invariant of runs: a call that did not find the file waits, was refused, or has started and the file is in the catalogue, and at most one has started; the file stays by the lemmas of C67; registration refuses what is there by C27")
d("C135","Model/Catalogue, Model/CatSystem","Hoare triples over every call and the start, with failures and kills at every operation: a progress file on disk or in memory implies a record in memory and a name in the index on disk, perhaps cut short; the converse from the agreement of memory and disk")
d("C136","Model/Catalogue, Model/CatSystem","each call taken apart at the operation that failed; the new file has no progress file by C135, so it cannot be shown; other files by the frame of each write")
d("C137","Model/Daemon, Model/Server","a run of at most two (four) steps built for every outcome of the handler; there is always a goroutine not yet started since every run is finite; steps left as a measure")
d("C138","Model/Catalogue","the failing operation located in each call and the index and progress file it leaves compared with Restartable (C120); the index that a successful call writes names what is in memory")
d("C139","Model/Json, Model/Catalogue","every function of the decoder (strings, numbers, arrays, objects, fields) shown to accept exactly the texts of the grammar, by induction on the text; the loop over the entries; a triple for the start")
d("C140","Model/Bitset, Model/Catalogue","words and bits of the bytes by induction on the byte sequence; Full without the invariant of bit sets (negative size, too few words, enough words); the start from C139")
d("C141","Model/Bitset, Model/Json, Model/Catalogue","the invariant that memory and disk agree (C30), the reading of bytes of C140 and the reading of texts of C139")

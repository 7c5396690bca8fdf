# Formal model of flu-network/client in Lean 4

## Method

The Go code in `/repo` is read as text and transcribed, function by function, into Lean (`lean/Verif/Model/*`).  Sequential code becomes total computable functions,
concurrent code becomes transition systems whose steps are the points where goroutines can be interleaved.  Every definition cites the file and lines it models and says
where it simplifies.  Independent specifications are in `lean/Verif/Spec/*` (and as short `Spec.` definitions next to the theorems); the property theorems are in
`lean/Verif/Props/*`, one file per area, named `Flu.Cnn_...`, with concrete `example`s next to them showing that their hypotheses can be met.  Helper lemmas live in
`lean/Verif/Lemmas/*`.

A property that is *false of the code* is handled as follows: the full statement is kept as `def Cnn_statement : Prop`, `Cnn_refuted` proves its negation from a concrete
execution, and the strongest true part found is proved as `Cnn_..._partial`, where possible as an exact condition (iff).  Its status is then "partial".  Where the property
text itself already names the limit, the status is "proved".

Theorems are tested by mutation: `tools/mutate.py` edits the model in a scratch copy as a realistic bug would, rebuilds, and records in `seeded/LOG.jsonl` which theorems
fail.  Survivors led to tightened theorems (or are noted as equivalent).

### Conventions

* Go `panic`, `log.Fatal`, error returns and death of the process are explicit outcomes (`Res`: `ok`, `err`, `panic`, `exit`, `crash`).
* Go `int`/`int64` values are Lean `Int` (64-bit platform); wrap-around is modelled where a conversion or product can wrap (`int(uint64)`, `uint16(int)`, `uint8(len)`, the
  window counter, the displayed percentage).
* Bytes are `UInt8`, Go strings are byte lists, bitset words are `BitVec 64`.
* Slices carry spare capacity where the code can see it (message parsing, `net.IP`, bitsets).
* sha1 is an arbitrary function parameter: no property depends on collision freeness unless it says so.
* The file system maps paths to contents.  Every operating-system call consults a list of faults: it may succeed, fail after part of its effect, or be the moment the process
  dies after part of its effect.  Theorems quantify over all such lists.
* "Reachable" (`Reach`) means: after any number of starts from an empty data directory, calls, faults, crashes, restarts and changes of other files by other programs, **in
  which no chunk is saved onto one of the catalogue's own files** (`Op.Safe`; the same condition is on the end of a transfer in `DownloadLoop`).  `CleanReach` is the same
  without faults.  This is an assumption of every theorem that speaks of reachable catalogues, and the code does not enforce it: a peer can break it with a hostile file name
  (C36, C87).  C87 shows for which downloads it holds by itself.  The manifest repeats it at every claim concerned.
* `Healthy`: the data directory's path is absolute, clean and unchanged by JSON (valid UTF-8); other directories are the subject of C69.
* Goroutines and channels are state machines with explicit steps; theorems quantify over all step sequences, with no fairness assumption unless stated.

## Properties

No property in the list is inexpressible.  Theorem names are in `MANIFEST.json`, the axioms of each in `AXIOMS.md`.

<!-- table begin -->
| Id | Property | Modelled (Lean module under `Verif/Model`) | How it is proved | Status |
|---|---|---|---|---|
| C01 | A bitset is a set of indices | `Bitset`: words as `List (BitVec 64)`, every method | abstraction of a bitset to a predicate on indices; refinement of histories of calls by finite sets, induction over the history | proved |
| C02 | Unset clears one index and nothing else | `Bitset`: words as `List (BitVec 64)`, every method | abstraction of a bitset to a predicate on indices; refinement of histories of calls by finite sets, induction over the history | partial |
| C03 | Size is the high-water mark | `Bitset`: words as `List (BitVec 64)`, every method | abstraction of a bitset to a predicate on indices; refinement of histories of calls by finite sets, induction over the history | proved |
| C04 | Count is the cardinality | `Bitset`: words as `List (BitVec 64)`, every method | abstraction of a bitset to a predicate on indices; refinement of histories of calls by finite sets, induction over the history | proved |
| C05 | Fill and Full agree with Get | `Bitset`: words as `List (BitVec 64)`, every method | abstraction of a bitset to a predicate on indices; refinement of histories of calls by finite sets, induction over the history | proved |
| C06 | Union and Intersect are set operations | `Bitset`: words as `List (BitVec 64)`, every method | abstraction of a bitset to a predicate on indices; refinement of histories of calls by finite sets, induction over the history | proved |
| C07 | Bitset serialisation round-trips | `Bitset`: `Serialize`/`Deserialize` byte by byte | big-endian codec inverse lemmas | proved |
| C08 | Ranges lists exactly the set indices | `Bitset`: the range loops with their 16-bit conversions | loop invariant against an independent specification of maximal runs (`Spec/Ranges`) | proved |
| C09 | Overlap lists exactly the set indices inside the query | `Bitset`: the range loops with their 16-bit conversions | loop invariant against an independent specification of maximal runs (`Spec/Ranges`) | proved |
| C10 | UnfilledRanges lists exactly the missing indices | `Bitset`: the range loops with their 16-bit conversions | loop invariant against an independent specification of maximal runs (`Spec/Ranges`) | proved |
| C100 | An index file rewritten by another program is read as it was meant | Model/Json, Model/Catalogue, Spec/JsonText | completeness of the parser for the grammar by induction on its derivations; store lemmas by induction over the members; the map as the last entries; then Sync as for C30 | proved |
| C101 | However often a peer asks for a chunk, the goroutines that serve it end | Model/SenderMany | books: began = stopped + working, ends met = stopped + signal in the channel + signals owed, kept by every step of every goroutine; then case analysis of the states in which nothing can happen | partial |
| C102 | A call that reports success has done its work on disk | Model/Catalogue, Model/CatSystem, Model/Disk | an operation of the disk that fails says so, and this is kept by the sequencing of operations: a success is one of the run without failures; then C30 for that run; RegisterDownload by following its one dropped error | partial |
| C103 | A full disk costs a download, not the daemon or its records | Model/Receiver, Model/Catalogue | a small calculus that counts the operations of the disk a call needs in a state; SaveChunk is a preparation that uses two or three of them and one write; afterwards C30 or the invariant of an unreadable record (C31_forever) | partial |
| C104 | The window holds however often a chunk is asked for | Model/SenderMany | invariant: the counter is what is outstanding, less what earlier goroutines left, while one goroutine at most is at work; explicit schedules by induction for the unbounded case | partial |
| C105 | Asking for a chunk cannot end the daemon | Model/SenderMany | invariant: the position stays in the section at each access while one goroutine at most is at work; an explicit schedule, by induction on the length of the chunk, for the panic | partial |
| C106 | An answer that comes in time reaches the discovery that asked | Model/Requests | invariant over all interleavings, with ghost counts of the identifiers drawn: identifiers under way are distinct modulo 2^16 | proved |
| C107 | A peer cannot make the daemon hold more than the chunk it was asked for | Model/Receiver | induction on the datagrams: the buffer has the announced size; an explicit datagram for every size | partial |
| C108 | A call of the catalogue succeeds exactly when it should | Model/CatSystem | case analysis over the calls, from the invariant that memory and disk agree after a history without faults | proved |
| C109 | A power loss does not make the daemon claim chunks that it lost | Model/Catalogue | the state after a power loss is reached from the state at the time of the progress file by a change of one user file, so the restart theorem applies; explicit losses for the failures | partial |
| C11 | UnfilledItems returns the first missing indices | `Bitset`: the range loops with their 16-bit conversions | loop invariant against an independent specification of maximal runs (`Spec/Ranges`) | proved |
| C110 | Calls made at the same time act one after the other | Model/Steps: the calls that take the lock as sequences of single accesses and single bytes, any number of goroutines | invariant: the state inside a call leads to what the call alone gives; run of the steps equals the call of Model/Catalogue | proved |
| C111 | A kill at any instant is a death at an operation on a file | Model/Steps | for every sequence of steps the files at each moment are those of a crash fault, closed under sequencing; then the invariant of C110 | proved |
| C112 | Hosts that all run this program spread the right file | Model/Network: any number of hosts, their answers, their uploads and the links between them | invariant over all runs: every host has part of F, every answer describes F, every upload carries its chunk; composition of C26, C29, C30, C32, C33, C42, C45, C48, C53, C66, C81; spreading by induction on the chunks | proved |
| C113 | A failing disk is reported, not hidden and not fatal | Model/Catalogue with Model/Disk's faults | success: each operation that succeeds consumed no failure, composed over the code of each call; return: a Hoare triple for `ends with a result or an error` composed the same way, with the triples of the read-only part giving that the progress read is well formed | proved |
| C114 | A chunk transfer over a network that loses, repeats and reorders | Model/Unreliable (Model/Transfer's sender and receiver, plus a step of the network) | safety: only the first packet can be under way before the receiver has it, since the sender waits for an acknowledgement; afterwards any packet of the chunk writes bytes of the chunk. Loss: the run is one of the reliable link with the chunk whose piece is zero, one acknowledgement short; same measure as C45 | proved |
| C115 | A host that shows a file as complete has exactly the file, on any network | Model/LossyNet: Model/Network with the links of Model/Unreliable | invariant over all runs: every host has part of its own version of the file, which has the right length and is right or zero at every byte, and every upload carries a chunk of such a version; passed on: C114_corrupts for the first chunk at one host, then induction over the chunks | partial |
| C116 | Asking again for a file that is there, or on its way, does not affect it | Model/DownloadLoop | invariants over all runs: what the catalogue shows of the file, and that no download of a complete file gets beyond its test; refuted by the run of C56_race preceded by the steps of a second get | partial |
| C117 | The index file depends only on which files are known | Model/Json, Model/Catalogue | the file on disk is the encoding of an index that agrees with what is shown (invariant of C30); byte-wise order of keys is a total order, so sorting forgets the order of the entries | proved |
| C118 | Only requested bytes of known files leave the machine, and only to who asked | Model/Daemon | invariant over runs of the whole daemon: every goroutine of a datagram, every upload and every packet on its way is traced back to a request and to a state in which the catalogue had the chunk | proved |
| C119 | What a chunk that was not saved leaves for the next daemon | Model/Catalogue, Model/Bitset, Model/DownloadLoop | SaveChunk is followed through every pattern of faults to the contents of the disk; the start after it is computed from that; what a prefix of the words says of each chunk and of all of them; the stuck invariant of C31; induction over runs of the download loop | proved |
| C12 | Copies do not share storage | `BitsetHeap`: heap of backing arrays, slices with offset, length and capacity | separation invariant over every program that interleaves calls on any number of bitsets | proved |
| C120 | After which deaths the next daemon works | Model/Catalogue, Model/Bitset, Spec/Restart | the start and the listing are computed from the contents of the disk, giving the equivalence for every reachable disk; each writing call is then followed up to each of its operations, and the equivalence applied to the disk it leaves | proved |
| C121 | A shared file is described by one of its contents | Model/LiveShare, Model/Readers, Model/Catalogue, Model/DownloadLoop | the loop of `HashFile` with an arbitrary content of the file at every read, by induction over the reads; the rest of the call as for C26; the download by C74 for the beginning of the later content | partial |
| C122 | Which hosts a download turns to, and when its search for them ends | Model/Linked, Daemon, Requests | invariants of the linked runs: every message in the hands of a goroutine came in a datagram; the request of a download's search never changes; steps of the table lifted to the daemon | proved |
| C123 | A download waits while the network is away | Model/DownloadLoop, Server | runs restricted to the steps that open no socket (Spec.AwayStep); a measure that every step of the goroutine lowers; invariants of C116 | partial |
| C124 | No command ends the daemon | Model/Commands, Cli, Text, Clean, DownloadLoop | clean: the progress of every listed record is in memory (Cached), so Rehash returns nil only where UnshareFile fails too; get: C37's fatal metadata, C16's overruns; list: C60; share: C113 | partial |
| C125 | Cleaning while other commands run | Model/CleanMany | a step relation over any number of Clean goroutines, one catalogue call per step; invariants: what a listing took for complete is still complete (progress only grows), no goroutine is about to remove the file; a nil hash means that the record was not there and without additions it does not come back | partial |
| C126 | A chunk of a file that changes while it is uploaded | Model/LiveUpload, Model/Sender, Model/Receiver | every read finds its own content; invariant: the reader stands where the packets sent so far end; the downloader's buffer is what was received, cut off at the announced size or filled up with zeros; the three bad cases by explicit runs for general contents | partial |
| C127 | How much a host can be made to send to another | Model/Daemon, Model/SenderMany | counting along the runs of the whole daemon: every request is held by at most one handler or waiting upload, every acknowledgement by at most one handler, a packet leaves only for one of them or within the window; the flood by an explicit run, with induction over the window | partial |
| C128 | What can end a running daemon | Model/Daemon, Model/Server, Model/SenderMany | invariants of the runs of the whole daemon: the message of every handler was parsed from a datagram that came; an upload to an address with one request satisfies the invariant of C105; C54 at the present catalogue for the handlers; C50 for the searches | proved |
| C129 | Requests for chunks do not end the daemon | Model/Daemon, Model/SenderMany, Model/Catalogue | simulation: every step of an upload is a step of the daemon, arrivals of requests are runs of a handler through Contains, GetChunkReader and kickstart, the announced hash and size are replaced by those of the chunk; then C104 and C105; the positive part by the invariant of C105 along the runs of the daemon | partial |
| C13 | Get is safe out of bounds | `Bitset`: words as `List (BitVec 64)`, every method | abstraction of a bitset to a predicate on indices; refinement of histories of calls by finite sets, induction over the history | partial |
| C130 | What a command line makes of the process | Model/Flags, Model/Cli | the outcome of parsing one argument as an iff for each of its forms (the cut at the equals sign by induction), the run over all arguments as a split into settings and the rest, unique by induction; commands by C62 | proved |
| C131 | Why a download ends the daemon | Model/DownloadLoop, Model/Daemon, Model/Receiver, Model/ListCommand | case analysis over the places of a download; for each the call of the catalogue on a clean state (C30, C34), the description through the outcome of parsing and registering, the chunk by induction over the datagrams to its end; the invariant DLInv for a download that is alone | proved |
| C132 | What can be told from how a command ends | Model/Process (over Flags, Cli, Commands, Text) | composition of C130 (which request), the methods of the daemon on clean states (C26, C38, C66, C81, C108, C124, C39) and C89 (which answers can be printed); that share and get answer with what the catalogue then shows by evaluation | proved |
| C133 | What a program can do through the socket | Model/Rpc (over Commands) | every request lacks a hash it needs or is one the command line could send; the former by evaluation, the latter by C124; sequences by induction with C124_goes_on | partial |
| C134 | Asking several times at once for a file that is new | Model/DownloadLoop | invariant of runs: a call that did not find the file waits, was refused, or has started and the file is in the catalogue, and at most one has started; the file stays by the lemmas of C67; registration refuses what is there by C27 | proved |
| C135 | Every progress file belongs to a file in the catalogue | Model/Catalogue, Model/CatSystem | Hoare triples over every call and the start, with failures and kills at every operation: a progress file on disk or in memory implies a record in memory and a name in the index on disk, perhaps cut short; the converse from the agreement of memory and disk | proved |
| C136 | What a call leaves behind that the disk has failed | Model/Catalogue, Model/CatSystem | each call taken apart at the operation that failed; the new file has no progress file by C135, so it cannot be shown; other files by the frame of each write | proved |
| C137 | A datagram is handled at once, whatever else is under way | Model/Daemon, Model/Server | a run of at most two (four) steps built for every outcome of the handler; there is always a goroutine not yet started since every run is finite; steps left as a measure | proved |
| C138 | Restarting after the disk has failed a call | Model/Catalogue | the failing operation located in each call and the index and progress file it leaves compared with Restartable (C120); the index that a successful call writes names what is in memory | proved |
| C139 | A file that is not an index is refused, and nothing is listed that it does not say | Model/Json, Model/Catalogue | every function of the decoder (strings, numbers, arrays, objects, fields) shown to accept exactly the texts of the grammar, by induction on the text; the loop over the entries; a triple for the start | proved |
| C14 | Control messages round-trip over the wire | `Messages`: the `messages` package on byte slices with spare capacity | parser inverse to serialiser with arbitrary suffix; prefix-freeness; exact case analysis of panics | proved |
| C140 | A progress file is believed byte for byte, whoever wrote it | Model/Bitset, Model/Catalogue | words and bits of the bytes by induction on the byte sequence; Full without the invariant of bit sets (negative size, too few words, enough words); the start from C139 | proved |
| C141 | Another program can read from the data directory what the daemon shows | Model/Bitset, Model/Json, Model/Catalogue | the invariant that memory and disk agree (C30), the reading of bytes of C140 and the reading of texts of C139 | proved |
| C15 | Encodings are unambiguous | `Messages`: the `messages` package on byte slices with spare capacity | parser inverse to serialiser with arbitrary suffix; prefix-freeness; exact case analysis of panics | proved |
| C16 | Parsing a datagram is total | `Messages`: the `messages` package on byte slices with spare capacity | parser inverse to serialiser with arbitrary suffix; prefix-freeness; exact case analysis of panics | proved |
| C17 | Every chunk list survives the wire | `Messages`: the `messages` package on byte slices with spare capacity | parser inverse to serialiser with arbitrary suffix; prefix-freeness; exact case analysis of panics | partial |
| C18 | File names are carried as their first 255 bytes | `Messages`: the `messages` package on byte slices with spare capacity | parser inverse to serialiser with arbitrary suffix; prefix-freeness; exact case analysis of panics | proved |
| C19 | Data packets round-trip and fit the receive buffer | `Messages`: `DataPacket` | direct, exact panic characterisation | proved |
| C20 | A peer's datagram cannot crash the receiver | `Receiver`: `downloadChunk` and `recvConnection.go` as a consumer of any sequence of datagrams | induction over the sequence; exact panic condition; coverage argument for repeated and reordered packets | partial |
| C21 | Hash text form round-trips and is validated | `Sha1`: `sha1Hash.go` and the hex codec | induction over digits | proved |
| C22 | HashFile hashes the whole file | `Readers`: read loops against arbitrary operating-system choices | induction over the choices; for the hang, no list of failing reads finishes the loop | proved |
| C23 | A chunk reader describes its chunk | `Readers`: read loops against arbitrary operating-system choices | induction over the choices; for the hang, no list of failing reads finishes the loop | proved |
| C24 | Opening a chunk always finishes | `Readers`: read loops against arbitrary operating-system choices | induction over the choices; for the hang, no list of failing reads finishes the loop | partial |
| C25 | Chunks partition the file | chunk arithmetic of `indexRecord.go`, section readers | list take/drop algebra, division lemmas | proved |
| C26 | Sharing a file publishes it completely | `Catalogue` over `Disk`, histories in `CatSystem` | invariant of all reachable states (calls, faults, crashes, restarts, foreign file changes), then per-call theorems | proved |
| C27 | No content is indexed twice | `Catalogue` over `Disk`, histories in `CatSystem` | invariant of all reachable states (calls, faults, crashes, restarts, foreign file changes), then per-call theorems | proved |
| C28 | Unsharing removes exactly one record and no user data | `Catalogue` over `Disk`, histories in `CatSystem` | invariant of all reachable states (calls, faults, crashes, restarts, foreign file changes), then per-call theorems | proved |
| C29 | Registering a download creates an empty progress record | `Catalogue` over `Disk`, histories in `CatSystem` | invariant of all reachable states (calls, faults, crashes, restarts, foreign file changes), then per-call theorems | proved |
| C30 | The catalogue survives a restart | as C26, restart through the JSON codec | memory and disk kept in step along fault-free histories (refinement of the restart) | proved |
| C31 | The catalogue stays usable after a crash | as C26, process death inside calls | stuck-state invariant for the refutation; write-order argument for the positive part | partial |
| C32 | Recorded progress never overstates the data on disk | `SaveChunk` with every fault list | write order: data before progress | proved |
| C33 | Chunks saved in any order rebuild the file | `SaveChunk` as positional overwrite | invariant over any sequence of saves | proved |
| C34 | Completion and missing chunks agree | `FileComplete`, `MissingChunks`, `GetChunkReader` | composition of bitset theorems with the catalogue invariant | proved |
| C35 | Only present chunks are served, and exactly | `FileComplete`, `MissingChunks`, `GetChunkReader` | composition of bitset theorems with the catalogue invariant | proved |
| C36 | Downloads stay inside the downloads directory | `Paths`: lexical `filepath.Clean`/`Join`/`Abs`, `path.Split` | algebra of path elements | partial |
| C37 | Hostile metadata cannot damage the catalogue | `RegisterDownload` on arbitrary metadata | exact set of fatal metadata; stuck-state invariant | partial |
| C38 | ListFiles lists every record once | `Catalogue` over `Disk`, histories in `CatSystem` | invariant of all reachable states (calls, faults, crashes, restarts, foreign file changes), then per-call theorems | proved |
| C39 | Clean removes exactly the bad entries | `Clean`: the `clean` command | induction over the map order with a frame invariant | proved |
| C40 | A sender emits the chunk in order, exactly once | `Sender`: `SenderConnection` and its worker as a transition system | invariant: what was sent is a prefix of the canonical stream; counting invariant for window and acknowledgements | proved |
| C41 | The send window is respected | `Sender`: `SenderConnection` and its worker as a transition system | invariant: what was sent is a prefix of the canonical stream; counting invariant for window and acknowledgements | proved |
| C42 | Transfer over a reliable link delivers the chunk | `Transfer`: sender, reliable link, receiver | joint invariant; strictly decreasing measure for termination; explicit executions for the failures | proved |
| C43 | Reordered and repeated data packets are harmless | `Receiver`: `downloadChunk` and `recvConnection.go` as a consumer of any sequence of datagrams | induction over the sequence; exact panic condition; coverage argument for repeated and reordered packets | proved |
| C44 | A corrupted chunk is never accepted | `Receiver`: `downloadChunk` and `recvConnection.go` as a consumer of any sequence of datagrams | induction over the sequence; exact panic condition; coverage argument for repeated and reordered packets | partial |
| C45 | A transfer over a reliable link finishes | `Transfer`: sender, reliable link, receiver | joint invariant; strictly decreasing measure for termination; explicit executions for the failures | partial |
| C46 | The sender's worker terminates | `Sender`: `SenderConnection` and its worker as a transition system | invariant: what was sent is a prefix of the canonical stream; counting invariant for window and acknowledgements | partial |
| C47 | A stray acknowledgement does not stop an upload | `Sender`: `SenderConnection` and its worker as a transition system | invariant: what was sent is a prefix of the canonical stream; counting invariant for window and acknowledgements | partial |
| C48 | Each upload sends the chunk that was asked for | `Server`: upload table | exact effect of the handlers | partial |
| C49 | Request IDs do not collide while in use | `Requests`: identifier counter, response table, channels of capacity one and the lock, any number of goroutines | invariant over all interleavings; exact stuck condition | proved |
| C50 | Responses reach only the request they answer | `Requests`: identifier counter, response table, channels of capacity one and the lock, any number of goroutines | invariant over all interleavings; exact stuck condition | proved |
| C51 | Discovery never deadlocks the server | `Requests`: identifier counter, response table, channels of capacity one and the lock, any number of goroutines | invariant over all interleavings; exact stuck condition | partial |
| C52 | A host answers discovery with exactly what it has | `Server`: responders composed with `Catalogue` and `Messages` | end-to-end composition against run and listing specifications | proved |
| C53 | Remote listing shows what the host has | `Server`: responders composed with `Catalogue` and `Messages` | end-to-end composition against run and listing specifications | proved |
| C54 | No datagram kills the daemon | `Server`: `HandleMessage` and the loop of `main.go` | exact set of fatal datagrams in every fault-free state | partial |
| C55 | Downloads only use other hosts that have the file | `Server`: `getGoodHosts`, `LocalIP` | direct against a list specification | proved |
| C56 | A download fetches every missing chunk once and stops | `DownloadLoop`: any number of download goroutines, other calls, faults | invariant over interleavings; explicit schedules for the limits | proved |
| C57 | The displayed integrity is the downloaded percentage | `Cli`: display arithmetic with 64-bit wrap, `net.IP` slices with capacity, `Client.Run` | arithmetic; exact case analysis | proved |
| C58 | Remote addresses are identified by their IPv4 bytes | `Cli`: display arithmetic with 64-bit wrap, `net.IP` slices with capacity, `Client.Run` | arithmetic; exact case analysis | proved |
| C59 | Acknowledgements are routed to one upload | `Server`: upload table | exact effect of the handlers | proved |
| C60 | Any listing command is safe for the daemon | `Cli`: display arithmetic with 64-bit wrap, `net.IP` slices with capacity, `Client.Run` | arithmetic; exact case analysis | partial |
| C61 | Cleaning up does not lose unfinished downloads | `Clean`: the `clean` command | induction over the map order with a frame invariant | partial |
| C62 | The command line sends what was typed or nothing | `Cli`: display arithmetic with 64-bit wrap, `net.IP` slices with capacity, `Client.Run` | arithmetic; exact case analysis | proved |
| C63 | Sharing a relative path shares the file the user sees | `Paths`, `Cli` and the daemon's working directory | explicit witness; equality for absolute paths | partial |
| C64 | A sharer whose file shrank cannot crash a downloader | `Transfer`: sender, reliable link, receiver | joint invariant; strictly decreasing measure for termination; explicit executions for the failures | partial |
| C65 | A host states its first non-loopback IPv4 address | `Server`: `getGoodHosts`, `LocalIP` | direct against a list specification | proved |
| C66 | Starting a download registers what the first other host describes, or changes nothing | `DownloadLoop`: the synchronous part of `StartDownload` | case analysis of the composed calls, every answer datagram | proved |
| C67 | Files do not disturb each other's records | `Catalogue`: frame of every call | induction over calls | proved |
| C68 | Restarting keeps the path of every file, whatever its name | `Json`: byte-level model of `encoding/json` | codec laws proved for the concrete codec; exact characterisation of surviving strings by an independent UTF-8 specification (`Spec/Utf8`) | partial |
| C69 | The daemon can keep its records in any directory | `Json`: byte-level model of `encoding/json` | codec laws proved for the concrete codec; exact characterisation of surviving strings by an independent UTF-8 specification (`Spec/Utf8`) | partial |
| C70 | One chunk transfer at a time, no deadlock, and no host left out | `DownloadLoop` with the transfer lock | invariant over interleavings; explicit endless datagram sequence | proved |
| C71 | A peer cannot hold up downloads for ever | `DownloadLoop` with the transfer lock | invariant over interleavings; explicit endless datagram sequence | partial |
| C72 | Progress survives files being looked up at the same time | `Unlocked`: look-ups as three steps between calls, reads during a write | invariants about one record and its progress file over all interleavings (`CatPoint`); explicit schedules | partial |
| C73 | Looking a file up cannot kill the daemon | `Unlocked`: look-ups as three steps between calls, reads during a write | invariants about one record and its progress file over all interleavings (`CatPoint`); explicit schedules | partial |
| C74 | A finished download is the file that was shared | `DownloadLoop`, `Catalogue`, `Server`, `Receiver` composed | invariant over all interleavings with honest peers; composition with sharing and description; existence of a finishing run | proved |
| C75 | The daemon only ever writes to its own files and to the files it downloads | `Catalogue`: every call and start-up, with faults | Hoare triples for a file outside the catalogue (`CatKeep`) | proved |
| C76 | A peer asked for one chunk can only affect that chunk | `DownloadLoop`, `Receiver`: one transfer with arbitrary datagrams | size invariant of the receiver; explicit datagrams for the limit | partial |
| C77 | A finished transfer is over | `RecvThread`: the reading goroutine, its channel and the loop as separate steps | invariant relating every schedule to the sequential receiver; bound on what fits into the channel; composition with the sender's window invariant | partial |
| C78 | A transfer gives back what it holds | `RecvThread`: the reading goroutine, its channel and the loop as separate steps | invariant relating every schedule to the sequential receiver; bound on what fits into the channel; composition with the sender's window invariant | partial |
| C79 | Peers learn nothing but what is shared | `Server`, `Catalogue`: every handler of an incoming datagram | relational Hoare logic (`Side`): two runs side by side | proved |
| C80 | Looking at a file again tells the truth | `Catalogue`: `rehash` with faults | read-only invariant (`RO`) and evaluation without faults | proved |
| C81 | A call that fails changes nothing | `Catalogue`: every call with faults | errors traced through every step (`Sure`, `bind_err`); explicit fault for the limit | partial |
| C82 | The daemon is never ended because two goroutines use a map at the same time | Model/Locks: for every activity of the daemon the set of sequences of lock, unlock, map read and map write operations it may go through; goroutines interleaved at this granularity, a map operation having a beginning and an end; the runtime's check at its beginning | invariant: every goroutine follows a lock order and holds what its remaining sequence needs (okFrom, checked by induction over the sequences); from it mutual exclusion, acyclic waits, progress by induction on the lock order, termination by a measure; explicit runs for the refutations | partial |
| C83 | No goroutine waits for ever for a lock | Model/Locks: for every activity of the daemon the set of sequences of lock, unlock, map read and map write operations it may go through; goroutines interleaved at this granularity, a map operation having a beginning and an end; the runtime's check at its beginning | invariant: every goroutine follows a lock order and holds what its remaining sequence needs (okFrom, checked by induction over the sequences); from it mutual exclusion, acyclic waits, progress by induction on the lock order, termination by a measure; explicit runs for the refutations | proved |
| C84 | The path recorded for a file is a normal spelling of the place the user named | Model/Paths (Clean, Join, Abs) as used by ShareFile and RegisterDownload | soundness of each rewriting rule for Clean, and completeness: every absolute path rewrites to its normal form, by induction over its elements | proved |
| C85 | Every packet of an upload carries the file's bytes at the offset it names | Model/SenderMany: one SenderConnection with any number of worker goroutines and kickstarts, interleaved at every single load or store of the position of the reader and of the window counter, and at every read, write and channel operation; the file changes at any moment | invariant on the only goroutine at work; an explicit run for the refutation | partial |
| C86 | Downloading one file does not change the content of another | Model/DownloadLoop, Model/Catalogue (registerDownload, saveChunk) | invariant over runs of any number of downloads; evaluation of the calls for the refutation | partial |
| C87 | No download writes onto the catalogue's own files | OpenStep in Props/OwnFiles: the steps of Model/CatSystem without the assumption on SaveChunk | Hoare triples for every call with the invariant that all recorded paths, in memory and on disk, satisfy a predicate; evaluation of the calls for the attacks | partial |
| C88 | Datagrams cannot change the user's files or the catalogue | Model/Server (serveDatagram and all handlers) | relational invariant carried through each handler, read-only Hoare triples of the catalogue calls; induction over the sequence of datagrams | proved |
| C89 | What the client prints says what the daemon answered | Model/Text: the Sprintf methods byte for byte | texts as lists of lines; lines cannot be confused without line breaks; numerals and hashes are injective | partial |
| C90 | A download gets the chunks that can be had | Model/DownloadLoop | invariant over all runs: the record does not change and every round in progress asks for the same chunk | partial |
| C91 | A file that is shown as complete has the content that its hash names | Model/Catalogue, Model/Clean, Model/DownloadLoop | composition of C26, C39 and C86; for downloads the run of C56 with an arbitrary hash | partial |
| C92 | A search shows which chunks each host has | Model/Discovery, Model/Server, Model/Messages, Model/Requests | composition of C52 and C50 with the parser's result for a wrapped count | partial |
| C93 | A download works on a fresh installation | Model/Main, Model/DownloadLoop, Spec/Dirs | invariant that a file without directory does not exist; composition with C33/C34 for the positive part | partial |
| C94 | Starting the daemon a second time does no harm | Model/Startup, Model/Catalogue | invariant of the machine's processes, socket and port; for lost records, composition of C30 with two runs of ShareFile on one file system | partial |
| C95 | An interrupted download can be resumed | Model/Catalogue, Model/DownloadLoop | composition of the fault analysis of SaveChunk, C30 (restart) and the completion of the download loop (C56) | proved |
| C96 | A host that is found is listed under the address it answered from | Model/Server, Model/Discovery | composition of the answer (C52), the address chosen (C65) and the receiving daemon's dispatch | partial |
| C97 | The daemon runs on a machine without a network | Model/Startup, Model/Server | invariant of executions: without a usable address no process gets past printing it | partial |
| C98 | A host can go on serving chunks for as long as it runs | Model/Descriptors: serveDatagram run with the faults that a full descriptor table causes | uploads table only grows (SKeeps); with two failing opens startUpload returns an error, without it succeeds (C48_serves); induction over the number of requests for exhaustion | partial |
| C99 | Transfers of a file that is taken out of the catalogue stop with an error | Model/DownloadLoop, Model/Server | step lemma: while the record is gone every surviving step of the download decreases its distance to the next look at the catalogue; well-founded induction over infinite executions | partial |
<!-- table end -->

## Which code is modelled

| File in `/repo` | Modelled | Not modelled |
|---|---|---|
| `common/bitset/bitset.go` | all of `NewBitset` … `Copy`, `shorterFirst` | `Print`, `Deb` (debug output) |
| `common/sha1Hash.go` | all | which error `hex.DecodeString` reports |
| `common/range.go`, `common/utils.go`, `common/chunkReader.go` | all | |
| `catalogue/*.go` | all of `Cat`, `indexFile`, `indexRecord`, `progressFile` that is called | `Sprint`; the unlocked `UnfilledItems`, `Size`, … wrappers are their bitset methods |
| `flu/messages/*.go` | all | |
| `flu/ipv4.go`, `flu/senderConnection.go`, `flu/recvConnection.go` | all | socket errors on `Write` in the receiver (ignored by the code) |
| `flu/server.go`, `flu/server*.go` | all handlers, request table, `StartDownload`, `downloadChunk`, discovery | printing; `NewServer` (initial state) |
| `cli/cliClient.go`, `cli/cliMethods*.go` | argument handling, requests, `Clean`, `List`, `Share`, `Chims`, `Get`, all printed text (`Text`), the exit status (`Process`), requests of other programs (`Rpc`) | usage messages, texts of errors |
| `main.go` | the flags and the choice of daemon or client (`Flags`), the UDP receive loop, the two directories, the start of the catalogue, the two goroutines that claim the socket and the port (`Startup`) | pprof, the rpc accept loop |

### Concurrency models

* `Requests`: goroutines of `DiscoverHosts` and of response datagrams around `resMapLock` and the channels.
* `Sender`: the worker goroutine of one upload against acknowledgements arriving at any point; `Transfer`: the same composed with a receiver and a link; `Unreliable`: the link loses, repeats and reorders.
* `DownloadLoop`: any number of download goroutines, catalogue calls by others, other programs, the transfer lock.
* `RecvThread`: the goroutine that reads a download's socket, its channel, and `downloadChunk`.
* `Startup`: any number of daemon processes claiming the socket and the port.
* `Unlocked`: `Contains` and `Rehash`, which do not take the catalogue's lock, as separate steps between the other calls, and reads during a write of a progress file.
  Elsewhere they are single steps.
* `Steps`: the calls that take the catalogue's lock, access by access and byte by byte, made by any number of goroutines. C110 and C111 justify that elsewhere such a call is one step
  and that a kill is one of the faults of its operations on files.
* `SenderMany`: an upload asked for more than once; `Descriptors`: uploads and their open files; `Locks`: every activity of the daemon as sequences of lock, unlock and map operations.
* `Daemon`: one whole daemon: downloads, commands and other programs (`DownloadLoop`), one goroutine per datagram, the uploads with their goroutines (`SenderMany`) and the table of
  requests, all interleaved.
* `Network`: any number of hosts that run this program, the answers they give and the links of their uploads; a call, an answer, the start of a download and a finished chunk are single steps. `LossyNet`: the same with links that lose, repeat and reorder.

## Simplifications

* Memory is unbounded: allocation never fails (the receiver's `make([]byte, size)` and huge bitsets succeed). How much the receiver's buffer takes is C107.
* A write is durable when it returns, except in C109, which lets each file fall back to an earlier version after a power loss (whole versions between two calls, no torn files).
* Everywhere but in `Model/Locks`, unsynchronised access to shared maps (`Server.uploads`, the index map in `Contains` and `Rehash`) is atomic. `Model/Locks` models the Go
  runtime's "concurrent map" termination, but not what the goroutines do with the data; the locks of the progress files are one lock there, and a goroutine that loops for ever
  appears as goroutines that loop any finite number of times.
* Directories are modelled only for C93 (`Model/Main`, `Spec/Dirs`), permissions and links nowhere (failures they cause are faults); a crash keeps writes already made (no loss in the operating system's cache); nobody
  else modifies a file during a call.
* `filepath.Clean` works on path elements; `Model/GoClean` is the library's byte loop, and `C84_library` proves them equal. JSON
  integers beyond 64 bits are accepted (the daemon never writes one).
* Outside `SenderMany` and `Daemon` (C85, C101, C104, C105, C118), an upload has one worker and reads the file as it was when the upload was opened. `SenderMany` interleaves every single load and store of the shared position and window counter, in one order that all goroutines agree on (Go promises less for data races); the bytes that one `ReadAt` returns are of one moment.
* Outside `RecvThread` the receiver parses a datagram when it is consumed, not when it arrives (C77 relates the two).
* Time: a deadline is a read that fails; the two seconds of discovery are a step that may happen at any time.
* `net.ParseIP` is an arbitrary function; `net/rpc` and gob deliver the request or fail, and drop empty slices.

## Trusted base

* Lean 4.33.0's kernel, and the axioms `propext`, `Classical.choice`, `Quot.sound` (per theorem in `AXIOMS.md`).  No own axioms, no `sorry`, no `native_decide`, no
  `bv_decide`.
* The reading of the Go code into the model, cited line by line, with the simplifications above.
* Behaviour of the Go standard library as recorded in the comments of the model: `encoding/binary`, `encoding/hex`, `encoding/json`, `path`, `path/filepath`, `io.SectionReader`,
  `os.ReadFile`/`WriteFile`/`OpenFile`/`Remove`, `hash.Hash`, `net.IP.To4`, UDP sockets (datagrams cut to the buffer), channels and mutexes.

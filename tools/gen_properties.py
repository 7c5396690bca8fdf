import json
P=[]
def p(title, statement, quantifier, why, anchors):
    P.append(dict(id="C%02d"%(len(P)+1), title=title, statement=statement, quantifier=quantifier, why_tests_cant=why, anchors=anchors))
B="common/bitset/bitset.go:"
p("A bitset is a set of indices",
  "Starting from NewBitset(n), after any history of Set calls Get(x) returns true exactly for the indices that were Set, and false for every other index; no Set disturbs any other index.",
  "every initial size n < 2^63, every finite sequence of Set arguments below 2^63-1 (the non-negative Go ints but the last), every queried index below 2^63 (C13 is about larger ones)",
  "tests draw a few thousand random indices in one range; the claim is about every index, every word boundary and every history", [B+"NewBitset",B+"Set",B+"Get"])
p("Unset clears one index and nothing else",
  "After Unset(x), Get(x) is false and Get(y) is what it was for every y other than x. (As written the code guarantees this only when x was set or out of bounds; on a clear in-bounds index it corrupts neighbouring indices.)",
  "every bitset, every x and y",
  "the tests only unset indices that are set, which is exactly the half of the domain where the code is right", [B+"Unset"])
p("Size is the high-water mark",
  "Size() never decreases; after NewBitset(n) and any history of Set/Unset/Fill it equals max(n, 1 + largest index ever Set). No index at or above Size() ever reads as set, provided no index was Unset while clear (such an Unset corrupts other indices, C02).",
  "every initial size n < 2^63 and every operation history with indices below 2^63-1", "an invariant over all histories", [B+"Size",B+"Set",B+"Unset",B+"Fill"])
p("Count is the cardinality",
  "Count() equals the number of indices x < Size() for which Get(x) is true, and does not change the bitset.",
  "every bitset reachable from NewBitset by Set, Fill and Unset of set or out-of-bounds indices (an Unset of a clear index corrupts, C02)", "tests check two sizes with random contents", [B+"Count"])
p("Fill and Full agree with Get",
  "After Fill() exactly the indices below Size() are set; Full() returns true exactly when every index below Size() is set (in particular for an empty bitset).",
  "every bitset reachable as in C04, every size including multiples of 64", "the last-word mask arithmetic must be right for all 64 residues and all sizes", [B+"Fill",B+"Full"])
p("Union and Intersect are set operations",
  "Get on a.Union(b) is the disjunction and on a.Intersect(b) the conjunction of Get on a and b, in either argument order and for any lengths; neither operand changes. (Size() of the result is not maintained: it is always 0.)",
  "every pair of bitsets, every index below 2^63", "two random sets over one index range are tested", [B+"Union",B+"Intersect",B+"shorterFirst"])
p("Bitset serialisation round-trips",
  "Deserialize(b.Serialize()) gives back a bitset with the same Size and the same Get on every index; Serialize is 8 + 8*ceil(size/64) bytes for a bitset reachable as in C04 and two bitsets with equal bytes are equal; input whose payload is not a multiple of 8 bytes is rejected with an error, and input shorter than 8 bytes panics.",
  "every bitset and every byte string", "tests try random contents up to one size; corrupt input is untested", [B+"Serialize",B+"Deserialize"])
p("Ranges lists exactly the set indices",
  "For a bitset of at most 65536 indices, Ranges() is an even-length list of inclusive [start,end] pairs, sorted, pairwise separated by at least one unset index, which together cover exactly the set indices. (For larger bitsets the 16-bit results are wrong.)",
  "every bitset reachable as in C04", "maximality, order and coverage must hold for every bit pattern", [B+"Ranges",B+"filledRanges"])
p("Overlap lists exactly the set indices inside the query",
  "For a well-formed query (even number of entries), Overlap(q) lists, pair by pair in query order, the maximal runs of set indices inside each inclusive query range: covers exactly the set indices inside it, sorted and separated. A query with an odd number of entries panics.",
  "every bitset and every query list", "five queries are tested", [B+"Overlap",B+"filledRanges"])
p("UnfilledRanges lists exactly the missing indices",
  "For a bitset of at most 65536 indices, UnfilledRanges() is a sorted, separated list of inclusive ranges covering exactly the indices below Size() that are not set; it is empty exactly when Full() is true.",
  "every bitset reachable as in C04", "every bit pattern and size", [B+"UnfilledRanges",B+"Full"])
p("UnfilledItems returns the first missing indices",
  "UnfilledItems(k) is the list of the first k indices below Size() that are not set, in increasing order, or all of them if there are fewer.",
  "every bitset of at most 65536 indices reachable as in C04 and every k >= 0", "untested; every pattern and k", [B+"UnfilledItems"])
p("Copies do not share storage",
  "A bitset returned by Copy() (and so any exported index record) has the same Size and Get as the original, and any later sequence of Set/Unset/Fill on either one never changes what the other reports.",
  "every heap state, every interleaving of mutations of original and copy", "aliasing through shared or spare slice capacity shows only for particular capacity/append histories", [B+"Copy","catalogue/progressFile.go:Export","catalogue/indexRecord.go:export"])
p("Get is safe out of bounds",
  "Get(x) for x out of bounds returns false and never panics. (True for every x < 2^63; for larger x the code indexes out of range and panics.)",
  "every bitset and every 64-bit index", "the failing half of the domain starts at 2^63", [B+"Get"])
M="flu/messages/"
p("Control messages round-trip over the wire",
  "Parsing the bytes of any serialised DiscoverHostRequest, DiscoverHostResponse, ListFilesRequest, ListFilesResponse, OpenConnectionRequest or DataPacketAck yields the same message, also when the bytes are followed by arbitrary padding as in the daemon's fixed 1024-byte receive buffer. Limits: at most 255 chunk entries, 65535 files, 255-byte file names.",
  "every message within the stated limits, every padding", "a handful of literals are tested, never with the padding every real datagram carries", [M+"parse.go:Parse",M+"msgDiscoverHosts.go:Serialize",M+"msgListFiles.go:Serialize",M+"msgConnection.go:Serialize",M+"msgDataPacket.go:Serialize"])
p("Encodings are unambiguous",
  "Two different control messages (within the size limits) never have encodings where one is a prefix of the other; in particular different messages have different bytes, and a message of one kind is never parsed as another kind.",
  "all pairs of messages", "a claim over all pairs", [M+"parse.go:Parse",M+"messageTypes.go"])
p("Parsing a datagram is total",
  "Parse on the daemon's 1024-byte buffer either returns a message or the unknown-type error; it panics exactly when the first byte says ListFilesResponse and the entries it announces run past the end of the buffer.",
  "every byte string of length 1024 (2^8192 of them)", "the input space is every datagram a peer may send", [M+"parse.go:Parse",M+"utils.go:byteReader","main.go:startDaemon"])
p("Every chunk list survives the wire",
  "A DiscoverHost request or response carrying any list of chunk ranges is received as that list. (Holds exactly up to 255 entries: the one-byte count wraps, so a host holding 128 separate runs appears to hold nothing.)",
  "every chunk list of every length", "the defect needs 128 separate runs", [M+"msgDiscoverHosts.go:Serialize",M+"utils.go:readSliceUint16"])
p("File names are carried as their first 255 bytes",
  "A file listed by a peer arrives with exactly the first 255 bytes of its name, every other field intact, and all following entries correctly aligned, whatever the names contain.",
  "every list of up to 65535 entries with arbitrary names", "names longer than 255 bytes and binary names are untested", [M+"utils.go:SerializeString255",M+"utils.go:readString256",M+"msgListFiles.go:Serialize"])
p("Data packets round-trip and fit the receive buffer",
  "ParseAsDataPacket inverts DataPacket.Serialize for every offset and payload; Split of a first packet built from a hash, a size and data returns exactly those; every packet a sender emits is at most 1029 bytes on the wire, the size of the receiver's buffer.",
  "every offset, payload, hash and size; every upload of a chunk below 4 GiB of a file that does not change meanwhile", "no tests exist", [M+"msgDataPacket.go:Serialize",M+"msgDataPacket.go:ParseAsDataPacket",M+"msgDataPacket.go:Split","flu/recvConnection.go:DialPeer"])
p("A peer's datagram cannot crash the receiver",
  "Handling a datagram on a download connection never panics. (It panics exactly when the datagram is shorter than 5 bytes, is a zero-offset packet with fewer than 24 payload bytes, is a data packet whose offset is beyond the announced chunk size, or is an empty packet before the first packet.)",
  "every receiver state and every datagram", "no tests; input space is everything a peer may send", [M+"msgDataPacket.go:ParseAsDataPacket",M+"msgDataPacket.go:Split","flu/serverStartDownload.go:downloadChunk"])
S="common/sha1Hash.go:"
p("Hash text form round-trips and is validated",
  "FromStringSafe(h.String()) gives back h; FromStringSafe accepts exactly the strings of 40 hexadecimal digits (either case) and then String() is their lower-case form; everything else is an error that leaves the hash unchanged; IsBlank is true exactly for the hash FF..FF; FromSliceSafe accepts exactly 20-byte slices.",
  "every hash and every string", "all 2^160 hashes and all strings", [S+"String",S+"FromStringSafe",S+"IsBlank",S+"Blank",S+"FromSliceSafe"])
p("HashFile hashes the whole file",
  "HashFile returns the sha1 of the complete file content no matter how the operating system splits the reads, and returns an error (never a hash) if any read fails before the end of the file.",
  "every content, every fragmentation into reads, every error position", "read fragmentation is chosen by the OS", ["common/utils.go:HashFile"])
p("A chunk reader describes its chunk",
  "NewChunkReader's Hash is the sha1 and Size the length of the section's bytes; Reset then successive Reads return those bytes in order with the offsets they start at, and Offset() is the number of bytes read so far.",
  "every file, section shorter than 4 GiB and sequence of buffer sizes; no read errors", "one file under 4096 bytes at offset 0 is tested", ["common/chunkReader.go:NewChunkReader","common/chunkReader.go:Read","common/chunkReader.go:Reset","common/chunkReader.go:Offset"])
p("Opening a chunk always finishes",
  "NewChunkReader returns. (It does whenever reads reach end of file; on a persistent read error it loops forever, holding the catalogue lock.)",
  "every read-result stream", "a hang cannot be observed by a terminating test; needs failing reads", ["common/chunkReader.go:NewChunkReader","catalogue/catalogue.go:GetChunkReader"])
p("Chunks partition the file",
  "For a file of any size and any positive chunk size, the chunk count is ceil(size/chunkSize), chunk i is the bytes [i*chunkSize, min((i+1)*chunkSize, size)), every chunk is non-empty, and the chunks 0..count-1 concatenated in order are the file.",
  "every file content and chunk size", "boundary arithmetic for every size", ["catalogue/progressFile.go:newProgressFile","catalogue/indexRecord.go:getChunkReader"])
C="catalogue/catalogue.go:"
p("Sharing a file publishes it completely",
  "If ShareFile(path) succeeds, the file's sha1, size, path and the default chunk size are in the catalogue, its progress is full with ceil(size/4MiB) chunks, and other records and all user files are unchanged.",
  "every catalogue state and every file", "all states and files", [C+"ShareFile","catalogue/indexRecord.go:generateIndexRecordForFile"])
p("No content is indexed twice",
  "In every reachable catalogue each record is stored under its own hash and no two records have the same hash; sharing or registering a hash that is already present returns an error naming the existing file and changes nothing in memory or on disk.",
  "every operation history", "an invariant over all histories", [C+"ShareFile",C+"RegisterDownload","catalogue/indexFile.go:AddIndexRecord"])
p("Unsharing removes exactly one record and no user data",
  "If UnshareFile(h) succeeds then h is gone from the catalogue and from disk, every other record and its progress is unchanged, and the user's files are untouched; if h is unknown an error is returned and nothing changes.",
  "every catalogue state and hash", "all states", [C+"UnshareFile","catalogue/indexFile.go:RemoveIndexRecord"])
p("Registering a download creates an empty progress record",
  "If RegisterDownload succeeds with a positive chunk size and a size below 2^63, the catalogue has the file with ceil(size/chunkSize) chunks none of which is set, under downloadsDir/filename; an existing record for the hash makes it fail with no change.",
  "every catalogue state and metadata", "all states and metadata", [C+"RegisterDownload","catalogue/progressFile.go:newProgressFile"])
p("The catalogue survives a restart",
  "After any history of successful ShareFile/RegisterDownload/UnshareFile/SaveChunk calls with no I/O faults, a restarted daemon lists exactly the same records with the same progress.",
  "every fault-free operation history; paths that are valid UTF-8 (for others see C68)", "tests marshal one index value; nothing restarts", [C+"Init","catalogue/indexFile.go:UnmarshalJSON","catalogue/indexFile.go:MarshalJSON","catalogue/progressFile.go:deserializeProgressFile"])
p("The catalogue stays usable after a crash",
  "Whatever instant the daemon dies at, after a restart ListFiles works. (Refuted: a crash between writing index.json and the progress file in ShareFile/RegisterDownload, or between deleting the progress file and rewriting index.json in UnshareFile, makes ListFiles, Clean, ShareFile of that file and UnshareFile fail for ever.)",
  "every operation, every crash point, every later history", "crash points and all subsequent histories cannot be enumerated by tests", [C+"ShareFile",C+"UnshareFile",C+"ListFiles","cli/cliMethodsClean.go:Clean"])
p("Recorded progress never overstates the data on disk",
  "At every crash point during SaveChunk (including partial writes), if the progress file on disk reads back with the chunk newly set, then the chunk's bytes are all in the file; bits of other chunks are never invented.",
  "every state, chunk, data and crash point or write error", "all crash points", [C+"SaveChunk","catalogue/indexRecord.go:saveChunk","catalogue/progressFile.go:save"])
p("Chunks saved in any order rebuild the file",
  "Registering a download of an honest file and saving its chunks in any order, with any repetitions, leaves exactly the original bytes at the download path as soon as FileComplete reports true, provided no longer file existed there. (If a longer file existed its tail survives; an empty file is complete at once and never created.)",
  "every file content, chunk size and order of chunk saves", "orders are factorially many", [C+"SaveChunk",C+"FileComplete","catalogue/indexRecord.go:saveChunk"])
p("Completion and missing chunks agree",
  "For a known file of at most 65536 chunks FileComplete(h) is true exactly when MissingChunks(h) is empty, which is exactly when every chunk has been saved; the first range of MissingChunks starts with the lowest unsaved chunk.",
  "every reachable catalogue", "all progress states", [C+"FileComplete",C+"MissingChunks"])
p("Only present chunks are served, and exactly",
  "GetChunkReader(h,i) succeeds only if chunk i of a known file is marked present and the file opens, and then the reader yields exactly bytes [i*chunkSize,(i+1)*chunkSize) of the file as it is on disk; otherwise an error and no data.",
  "every catalogue state, file and chunk number", "all states", [C+"GetChunkReader","catalogue/indexRecord.go:getChunkReader"])
p("Downloads stay inside the downloads directory",
  "The path a download is written to is a direct child of the downloads directory. (True when the peer sends a plain file name, which honest peers do; false for names such as ../../x, which are not sanitised.)",
  "every file name a peer can send", "all strings", [C+"RegisterDownload","flu/serverListFilesOnHost.go:RespondToListFilesOnHost"])
p("Hostile metadata cannot damage the catalogue",
  "Starting a download with metadata supplied by a peer leaves a usable catalogue. (Refuted: chunk size 0, or a size of 2^63 or more unless within a chunk or two of 2^64, panics after index.json was already rewritten, leaving a record without progress: the catalogue is permanently broken after restart. All other metadata are registered and leave a usable catalogue, memory permitting.)",
  "every metadata value a peer can send", "all values and histories after", [C+"RegisterDownload","catalogue/progressFile.go:newProgressFile","flu/serverStartDownload.go:StartDownload"])
p("ListFiles lists every record once",
  "A ListFiles that succeeds returns one entry per catalogue record, each with the record's current path, size, hash, chunk size and progress, whatever order the map is iterated in, and changes nothing observable. It succeeds if every record can be shown.",
  "every reachable catalogue and every map iteration order", "Go randomises map order", [C+"ListFiles"])
p("Clean removes exactly the bad entries",
  "After a successful Clean, the catalogue contains exactly the former records whose file is readable and which are either incomplete or hash to their indexed hash; complete records with missing or changed files are gone, user files are untouched, and one response item is produced per former record.",
  "every reachable catalogue none of whose recorded paths is one of the catalogue's own files, every file-system state, every iteration order; for the exact result no OS call fails other than by a missing file", "all combinations of states", ["cli/cliMethodsClean.go:Clean",C+"Rehash",C+"UnshareFile"])
F="flu/"
p("A sender emits the chunk in order, exactly once",
  "For every window size and every schedule of acknowledgements, the packets sent on an upload are a prefix of one fixed sequence: a first packet carrying hash, size and the first 1000 bytes, then 1024-byte slices at their exact offsets covering the rest of the chunk without gap or overlap, then empty packets at offset = chunk size.",
  "every chunk below 4 GiB of a file that does not change during the upload, every window capacity and acknowledgement history", "ack schedules are unbounded", [F+"senderConnection.go:kickstart",F+"senderConnection.go:kick"])
p("The send window is respected",
  "While every acknowledgement answers a distinct packet, the number of packets sent but not acknowledged never exceeds the receiver's window capacity (or 1 if that is 0).",
  "every chunk below 4 GiB, capacity and history of acks", "all schedules", [F+"senderConnection.go:kick"])
p("Transfer over a reliable link delivers the chunk",
  "If the network neither loses, duplicates nor reorders packets, then in every interleaving of sender, network and receiver, whatever the receiver hands to the catalogue is byte-for-byte the sender's chunk, the hashes match and no one panics.",
  "every chunk with at least one byte and below 4 GiB, window capacity and interleaving", "interleavings are unbounded", [F+"senderConnection.go:kick",F+"serverStartDownload.go:downloadChunk",F+"recvConnection.go:DialPeer"])
p("Reordered and repeated data packets are harmless",
  "If the first packet arrives once and first, and every data packet arrives at least once before an end marker, in any order and any number of times, the assembled chunk equals the sender's chunk. (A repeated first packet erases what was received before it.)",
  "every chunk below 4 GiB and every arrival sequence", "permutations with repetition", [F+"serverStartDownload.go:downloadChunk"])
p("A corrupted chunk is never accepted",
  "A chunk is recorded as downloaded only if its sha1 matched. (Refuted: on mismatch the code prints a message and saves the chunk anyway; losing one data packet is enough to record a corrupt chunk as complete.)",
  "every packet sequence", "needs loss at a particular point", [F+"serverStartDownload.go:downloadChunk"])
p("A transfer over a reliable link finishes",
  "On a reliable FIFO link every maximal execution ends with the receiver having the chunk. (True when the last data packet of the chunk is sent with room left in the window or fills its read exactly; otherwise the sender can stop before sending the end marker and the transfer stalls.)",
  "every chunk, capacity >= 1 and every fair interleaving", "liveness over all schedules", [F+"senderConnection.go:kick",F+"senderConnection.go:terminate"])
p("The sender's worker terminates",
  "After the end of the chunk the worker goroutine exits. (Refuted: the worker signals itself on a channel of capacity 1; whenever it observes end-of-chunk twice in one kick it blocks for ever.)",
  "every chunk, capacity and schedule", "a leaked goroutine is invisible to unit tests", [F+"senderConnection.go:kick",F+"senderConnection.go:terminate"])
p("A stray acknowledgement does not stop an upload",
  "Acknowledgements beyond the number of packets sent are ignored. (Refuted: each acknowledgement that answers no outstanding packet makes the sender send one packet more than the window allows; never more than one, and the upload is never blocked by it.)",
  "every sender state", "needs a duplicated ack at a particular moment", [F+"senderConnection.go:kick"])
p("Each upload sends the chunk that was asked for",
  "The first packet sent in reply to an OpenConnectionRequest carries the hash, size and first bytes of the requested chunk. (True for a remote address not seen before; for an address already in the upload table the old chunk's bytes are sent under the new chunk's hash.)",
  "every server state, request and remote address", "depends on the whole history of requests from that address", [F+"serverStartUpload.go:StartUpload",F+"senderConnection.go:NewSenderConnection"])
p("Request IDs do not collide while in use",
  "Any 65536 consecutively generated request IDs are pairwise distinct, and the (n+65536)-th equals the n-th.",
  "every number of previous requests", "needs 65536-step histories", [F+"server.go:generateRequestID"])
p("Responses reach only the request they answer",
  "In every interleaving, a message received on a request's response channel has that request's ID and response type; a response whose ID/type has no pending request is rejected with an error and changes nothing.",
  "every interleaving of registrations, deliveries and expiries", "all interleavings", [F+"server.go:registerResponseChan",F+"server.go:deliverResponse",F+"server.go:unregisterResponseChan"])
p("Discovery never deadlocks the server",
  "Host discovery always returns and later requests can still be served. (Refuted: a delivery blocked on a full response channel holds the table lock that the timed-out requester needs; both then wait for ever.)",
  "every interleaving", "a two-goroutine race in a narrow window", [F+"server.go:deliverResponse",F+"serverDiscoverHosts.go:DiscoverHosts"])
p("A host answers discovery with exactly what it has",
  "The reply to a DiscoverHostRequest repeats the request ID and the host's address and lists exactly the chunks the host holds of the requested file that fall in the requested ranges (all its chunks if none were requested); no chunks if the hash is blank or unknown.",
  "every catalogue reached without disk faults and every request with an even number of entries", "all requests and states", [F+"serverDiscoverHosts.go:RespondToDiscoverHosts"])
p("Remote listing shows what the host has",
  "ListFilesOnHost returns exactly the peer's list of files (names cut to base name and 255 bytes). (True when the encoded response fits in 1024 bytes; a longer response crashes the asking daemon.)",
  "every catalogue of the peer reached without disk faults", "needs more than a dozen files", [F+"serverListFilesOnHost.go:ListFilesOnHost",F+"serverListFilesOnHost.go:RespondToListFilesOnHost"])
p("No datagram kills the daemon",
  "HandleMessage returns normally or with an error for every datagram. (Refuted: a listing request for an unknown hash exits the process; an odd chunk count in a discovery request for a known file, or an over-long listing response, panics.)",
  "every datagram and every server state", "all inputs a peer may send", [F+"server.go:HandleMessage",F+"serverListFilesOnHost.go:RespondToListFilesOnHost",B+"Overlap"])
p("Downloads only use other hosts that have the file",
  "The hosts used for a download are exactly those responders that advertise at least one chunk and are not this host, in response order. (They need not have the chunk being fetched: the requested range is ignored.)",
  "every set of discovery responses", "all response lists", [F+"serverStartDownload.go:getGoodHosts"])
p("A download fetches every missing chunk once and stops",
  "A single download of a file of at most 65536 chunks never indexes an empty list, each round requests the lowest missing chunk, and if each round some peer delivers, it stops after exactly the number of missing chunks with the file complete. (Two concurrent downloads of the same file can crash the daemon; a file of more than 65536 chunks never completes.)",
  "every progress state and every interleaving of two downloads", "interleavings and large files", [F+"serverStartDownload.go:StartDownload",C+"MissingChunks",C+"FileComplete"])
p("The displayed integrity is the downloaded percentage",
  "The Integrity line shows floor(100 * downloaded / count), so it shows 100% exactly when every chunk is downloaded. (A file with no chunks, i.e. an empty file, makes the display panic.)",
  "every chunk count below 2^63/10000 and downloaded count", "all pairs", ["cli/cliMethodsShare.go:Sprintf"])
p("Remote addresses are identified by their IPv4 bytes",
  "newIpv4 returns the four address bytes for both the 4-byte and the 16-byte form of an IPv4 address, an error for any other address, so the two forms of one address name the same upload, provided the address is stored in a slice without spare capacity. (With spare capacity it can panic or return bytes outside the address.)",
  "every net.IP value", "all addresses in both forms", [F+"ipv4.go:newIpv4"])
p("Acknowledgements are routed to one upload",
  "An acknowledgement changes only the upload of the address and port it came from; an acknowledgement from an address without an upload is an error and changes nothing.",
  "every server state and acknowledgement", "all states", [F+"serverContinueUpload.go:ContinueUpload"])
p("Any listing command is safe for the daemon",
  "`flu list` with any address argument the CLI accepts never crashes the daemon. (Refuted: an IPv6 address is accepted by the CLI and then dereferenced as a nil IPv4 address; an address to which no socket can be opened ends the daemon, and so does a host that answers with a listing which announces more than the 1024 bytes of the buffer hold. In all other cases the daemon goes on, and listing its own files never ends it, even if the disk fails.)",
  "every address the CLI accepts, every answer of the host, all failures of the disk", "all addresses and all answers", ["cli/cliMethodsList.go:List","cli/cliClient.go:Run"])
p("Cleaning up does not lose unfinished downloads",
  "Running `clean` never removes an unfinished download from the index. (Refuted: a download that was announced but of which no chunk has been written yet has no file, is reported missing and removed, and the download's next look at the catalogue panics. True for downloads with at least one chunk on disk.)",
  "every reachable catalogue and moment of cleaning", "interleaving of a background download with another command", ["cli/cliMethodsClean.go:Clean",C+"Rehash",F+"serverStartDownload.go:StartDownload"])
p("The command line sends what was typed or nothing",
  "With the daemon running, the client sends a request exactly when the command line is a valid command, and sends exactly that path, address and hash (40 hexadecimal digits in either case); every other command line ends with a message and contacts nobody; the client itself panics only for `get` without argument, and when showing a discovery answer with an odd number of range ends.",
  "every list of command line arguments and every address parser", "all argument lists", ["cli/cliClient.go:Run","cli/cliMethodsChims.go:Sprintf"])
p("Sharing a relative path shares the file the user sees",
  "`flu share p` shares the file that p names in the directory where the command was typed. (Refuted: the daemon resolves relative paths in its own working directory. True for absolute paths.)",
  "every path, user directory and daemon directory", "depends on two processes' working directories", ["cli/cliClient.go:Run","cli/cliMethodsShare.go:Share",C+"ShareFile"])
p("A sharer whose file shrank cannot crash a downloader",
  "Downloading a chunk that the sharer's file no longer reaches fails without taking down the downloader. (Refuted: the empty chunk's end marker has offset 0, is taken for a first packet, and splitting it panics. True as long as one byte of the chunk is left.)",
  "every file content, chunk and window", "needs the whole conversation between two daemons", [F+"serverStartDownload.go:downloadChunk",F+"senderConnection.go:kick",F+"messages/msgDataPacket.go:Split"])
p("A host states its first non-loopback IPv4 address",
  "LocalIP, the address a host puts into its discovery answers and the one it leaves out of its own downloads, is the first interface address that is IPv4 and not loopback; nil exactly if there is none; it panics only if the interface addresses cannot be obtained.",
  "every list of interface addresses", "depends on the machine's interfaces", [F+"server.go:LocalIP"])
p("Starting a download registers what the first other host describes, or changes nothing",
  "When `get` succeeds, this host has an address, another host has announced chunks of the file, and either the catalogue already had the file and is unchanged, or the first such host described it and the catalogue now has it with that size, chunk size and name in the downloads directory, with no chunk downloaded and every other file unchanged; if that host runs this program and has the file, these are the values it has there. When `get` returns an error nothing has changed.",
  "every catalogue reached without disk faults, every set of interface addresses, discovery answers and descriptions with sizes below 2^63 and chunk sizes above 0", "needs two daemons and every combination of answers", [F+"serverStartDownload.go:StartDownload",F+"serverStartDownload.go:downloadMetaData",C+"RegisterDownload"])
p("Files do not disturb each other's records",
  "What the catalogue says about a file (path, size, chunks downloaded) is not changed by sharing, unsharing, registering or downloading other files, nor by other programs writing files that are not the catalogue's, whatever disk faults occur and in whatever order the steps of concurrent downloads interleave, provided no download's path is one of the catalogue's own files (C87).",
  "every reachable catalogue, call about another file, fault, and interleaving of downloads", "all interleavings and fault points", [C+"SaveChunk",C+"ShareFile",C+"UnshareFile",C+"RegisterDownload",F+"serverStartDownload.go:StartDownload"])
p("Restarting keeps the path of every file, whatever its name",
  "After a restart the daemon serves every hash from exactly the path it served it from before, with the same size, chunk size and progress, also when file names contain bytes that are not UTF-8 text (Linux allows any bytes in names).",
  "every fault-free history of catalogue calls, every file name, every hash, with the index stored by Go's JSON package",
  "The JSON encoder silently replaces bytes that are not UTF-8; which of the infinitely many names survive is a statement about the byte-level encoder and decoder, and tests use ASCII names.",
  ["catalogue/indexFile.go:MarshalJSON", "catalogue/indexFile.go:UnmarshalJSON", C+"Init", C+"ShareFile"])
p("The daemon can keep its records in any directory",
  "Whatever the data directory is called, a file shared with a daemon that keeps its data there is still shared after the daemon is restarted.",
  "every absolute data directory, every shared file, every restart, with the index stored by Go's JSON package",
  "The directory is read back out of the index file through JSON, so the place where the next save goes depends on how the name survives encoding; tests use ASCII directories.",
  ["catalogue/indexFile.go:save", C+"Init", C+"NewCat"])

p("One chunk transfer at a time, no deadlock, and no host left out",
  "However many downloads run at once, at most one chunk is being fetched at any moment. A download that is not over can always go on, or becomes able to as soon as the transfer under way ends, which it does when its peer is silent for five seconds. When a download comes to a host it always fetches from it: no host is passed over because of an earlier transfer, finished or failed.",
  "all executions of any number of downloads, other catalogue calls and other programs, with arbitrary disk faults and arbitrary peers",
  "The lock and the table of transfers are shared by all downloads; the claim is an invariant over all interleavings, which tests sample a few of.",
  [F+"serverStartDownload.go:StartDownload", F+"serverStartDownload.go:downloadChunk", F+"server.go:Server"])
p("A peer cannot hold up downloads for ever",
  "Whatever a peer sends, the transfer of a chunk ends after a bounded number of datagrams, so that other downloads, which wait for it, can go on.",
  "every peer and every sequence of datagrams",
  "It is a claim about all infinite behaviours of a hostile peer.",
  [F+"serverStartDownload.go:downloadChunk", F+"recvConnection.go:DialPeer"])

p("Progress survives files being looked up at the same time",
  "Once saving a chunk has returned without an error, the chunk stays recorded until the file is unshared, whatever look-ups of files (for peers, for downloads, for cleaning) run at the same time; and a chunk that is recorded was recorded before or has been saved since.",
  "all interleavings of any number of look-ups with all other calls, meeting any disk faults, from every reachable catalogue",
  "Look-ups do not take the catalogue's lock; only certain interleavings, and only after a restart, lose anything.",
  [C+"Contains", C+"Rehash", C+"fill", C+"SaveChunk"])
p("Looking a file up cannot kill the daemon",
  "In a daemon whose disk works, looking up a file never ends the process, whatever else it is doing at that moment.",
  "all interleavings of look-ups with chunks being saved, every moment of the write of the progress file",
  "The window is between truncating and rewriting a small file; a test would have to hit it.",
  [C+"Contains", C+"fill", "catalogue/progressFile.go:deserializeProgressFile", "common/bitset/bitset.go:Deserialize"])

p("A finished download is the file that was shared",
  "If a user shares a file on one host, and on another host somebody starts to download it and the peers that are asked send the chunks they are asked for (or give up), then once that download has finished, the file in the download directory has exactly the bytes of the shared one, provided the file is not empty and no longer file of that name was there before, whatever else the downloading daemon does meanwhile: downloads of files with other paths, other calls that do not remove the file from the catalogue or save to it, transfers that fail and are repeated, several downloads of the same file at once. (A download of another file that gets the same path is excluded: see C86.) If it has at most 65536 chunks, such a run to the end exists.",
  "all file contents, all interleavings of the download with any number of other downloads, calls and other programs that do not write to the file itself, all orders in which chunks arrive and all failed attempts; the hash of the file is not the blank hash FF...FF",
  "It spans both hosts, the description, the progress record, the packets and the writes to the file, over unboundedly many interleavings.",
  [F+"serverStartDownload.go:StartDownload", C+"ShareFile", C+"RegisterDownload", C+"SaveChunk", C+"FileComplete", C+"MissingChunks", F+"recvConnection.go:DialPeer"])
p("The daemon only ever writes to its own files and to the files it downloads",
  "No call of the daemon (Clean included) and no start of it creates, changes or removes any file other than those in its own catalogue directory and the file of a download that a chunk is saved for; and saving a chunk changes no bytes of that file other than those of the chunk's data, apart from zeros in a gap before it, even when the disk fails or the daemon is killed in the middle.",
  "all reachable catalogues, all calls and arguments, all disk faults and kills, all files and offsets",
  "It speaks about every file on the disk and every point at which a call can fail.",
  [C+"ShareFile", C+"UnshareFile", C+"RegisterDownload", C+"SaveChunk", C+"Init", "catalogue/indexFile.go:save", "catalogue/progressFile.go:save"])
p("A peer asked for one chunk can only affect that chunk",
  "Whatever a peer sends when it is asked for chunk n of a file, no bytes of the file outside chunk n change.",
  "all sequences of datagrams the peer may send, all reachable catalogues, files and chunk numbers",
  "The peer's datagrams are adversarial; tests only exercise well-formed transfers.",
  [F+"recvConnection.go:DialPeer", F+"serverStartDownload.go:downloadChunk", C+"SaveChunk"])

p("A finished transfer is over",
  "Once a chunk has been received in full, whatever the peer it came from sends afterwards changes nothing: neither the chunk nor the daemon. Before that, what is received depends only on the datagrams and their order, not on how fast the daemon works them off.",
  "all sequences of datagrams before and after the end of the transfer, all schedules of the daemon's two threads for it",
  "The peer is adversarial and the moment after the end of a transfer is one no caller waits for; schedules cannot be enumerated by tests.",
  [F+"recvConnection.go:DialPeer", F+"recvConnection.go:Read", F+"serverStartDownload.go:downloadChunk"])
p("A transfer gives back what it holds",
  "When a transfer of a chunk is over, whether received or given up, its socket gets closed and its thread ends.",
  "all sequences of datagrams and timeouts, all schedules of the two threads, every honest upload with any window",
  "A leak shows only as growing resource use of a long-running daemon; whether it happens depends on how many datagrams come after the end.",
  [F+"recvConnection.go:DialPeer", F+"serverStartDownload.go:downloadChunk", F+"senderConnection.go:kick"])
p("Peers learn nothing but what is shared",
  "Two daemons that share the same files under the same names and have the same parts of them, but keep them in different directories, have different data and download directories and process ids, and differ in any other file on their disks, answer every sequence of datagrams with the same bytes to the same addresses, even when disk operations fail.",
  "all pairs of such daemons, all sequences of datagrams and senders, all disk faults and network behaviours",
  "Non-interference relates two executions and all possible secrets; a test compares single outputs.",
  [F+"serverListFilesOnHost.go:RespondToListFilesOnHost", F+"serverDiscoverHosts.go:RespondToDiscoverHosts", F+"serverStartUpload.go:StartUpload", F+"serverContinueUpload.go:ContinueUpload", C+"ListFiles", C+"Contains"])
p("Looking at a file again tells the truth",
  "Rehash answers with the sha1 of what the file recorded for that hash contains at that moment, never with an earlier result or the indexed hash, and, as long as the disk works, succeeds exactly if the catalogue shows the file and the file is there; it changes neither files nor catalogue, whatever fails.",
  "all reachable catalogues, all hashes, all contents other programs may have put into the file, all disk faults",
  "A stale or cached answer is indistinguishable from a fresh one unless the file changes in between; all changes and failure points are quantified over.",
  [C+"Rehash", "common/utils.go:HashFile"])
p("A call that fails changes nothing",
  "If a call of the catalogue returns an error, the files and what the catalogue says about every hash are as before the call.",
  "all reachable catalogues, all calls and arguments, all errors and disk faults",
  "It quantifies over every point of every call at which the disk can fail; tests rarely inject even one.",
  [C+"ShareFile", C+"UnshareFile", C+"RegisterDownload", C+"SaveChunk", "catalogue/indexFile.go:AddIndexRecord"])
p("The daemon is never ended because two goroutines use a map at the same time",
  "However the daemon's goroutines (one per datagram, one per command, one per download) are scheduled, the Go runtime never ends the process with 'concurrent map read and map write' or 'concurrent map writes'. False of the code for two of the four shared maps - the table of uploads, which has no lock, and the index, which Contains and Rehash read without the lock - and true for the other two, and for all of them when only shares, listings and running downloads are about.",
  "all sets of goroutines, started at any time, and all interleavings",
  "The failure needs two uses of a map within nanoseconds of each other; a test would have to hit the window, and the absence of it for the other maps cannot be tested at all.",
  [F+"server.go:Server", F+"serverStartUpload.go:StartUpload", F+"serverContinueUpload.go:ContinueUpload", F+"serverStartDownload.go:StartDownload", C+"Contains", C+"Rehash", C+"ShareFile"])
p("No goroutine waits for ever for a lock",
  "No goroutine ever waits, directly or through other goroutines, for a lock that it holds itself; as long as some goroutine has something left to do one of them can go on; if no new goroutine is started they all finish, within a bounded number of steps, with every lock free (unless the runtime ends the process, see C82); and no lock is given back that is not held. Waiting on a channel is not covered here: see C51.",
  "all sets of goroutines, started at any time, and all interleavings",
  "Deadlocks depend on the interleaving; a test exercises a few of unboundedly many.",
  [F+"server.go:generateRequestID", F+"server.go:registerResponseChan", F+"serverStartDownload.go:StartDownload", C+"SaveChunk", C+"Get", "catalogue/progressFile.go:progressFile"])
p("The path recorded for a file is a normal spelling of the place the user named",
  "When a file is shared, the recorded path is a spelling of the place that the user's path names (from the daemon's working directory, if it is relative) in which no element is empty, '.' or '..'; two shares record the same path exactly if the two paths name the same place under the textual rules a//b = a/b, a/./b = a/b, a/name/../b = a/b, /../b = /b, a/ = a. The path of a download is likewise a normal spelling of downloads-directory/name.",
  "all paths, all names sent by peers, all reachable catalogues, with or without disk failures elsewhere",
  "The set of spellings of a path is infinite; the 'exactly if' says that no two of them are ever told apart and no two different places are ever confused.",
  ["catalogue/indexRecord.go:generateIndexRecordForFile", C+"RegisterDownload", C+"NewCat"])
p("Every packet of an upload carries the file's bytes at the offset it names",
  "Each packet a daemon sends during an upload is either the announcement with the first bytes of the chunk, or bytes of the chunk at the offset written in the packet, as the file was at some moment of the upload; and the pieces follow one another without gap or overlap. False of the code when a second request from the same address arrives during the upload (for example a datagram duplicated by the network): two goroutines then share one reader and a packet can carry the bytes of a later place. True, even if the file is changed meanwhile, when requests from one address do not overlap.",
  "all files and changes to them during the upload, all requests, acknowledgements, failures of reads and writes, all interleavings of the goroutines at the level of single loads and stores",
  "The mix-up needs a particular interleaving of two goroutines between two statements; for the true part the number of interleavings and changes of the file is unbounded.",
  [F+"senderConnection.go:kickstart", F+"senderConnection.go:kick", F+"serverStartUpload.go:StartUpload", "common/chunkReader.go:Read"])
p("Downloading one file does not change the content of another",
  "Saving a chunk of one file never changes the bytes of another file the catalogue has. False of the code: a download goes to the downloads directory under the name the peer sent, even if another file of the catalogue already lies there, so the first chunk is written over that file while the catalogue goes on calling it complete. True as long as no two files of the catalogue have the same path; two downloads with plain names have the same path exactly if they have the same name.",
  "all reachable catalogues, all files, names and chunks, all interleavings of any number of downloads with other calls and other programs, all disk faults",
  "The collision needs two different files with one name, which each test of a single download avoids; the true part quantifies over all interleavings.",
  [C+"RegisterDownload", C+"SaveChunk", F+"serverStartDownload.go:StartDownload"])
p("No download writes onto the catalogue's own files",
  "The path of a shared or downloaded file is never the index or a progress file of the catalogue, so no chunk is ever written over them. False of the code: a peer chooses the name, and a name like ../catalogue/index.json leads to the index; one such download makes every later start of the daemon fail, or makes the restarted daemon serve any file of the user that the peer asked for. True when the names of downloads are plain file names, the downloads directory is not the data directory, and the user does not share the catalogue's own files.",
  "all sequences of calls, disk faults, crashes, kills, restarts and changes of other files; for the false part all states of the catalogue and all existing files",
  "One must show that no history leads to such a path, also through storing paths as JSON and reading them back; the attack needs a name and content made for it.",
  [C+"RegisterDownload", C+"SaveChunk", C+"Init", C+"GetChunkReader", "catalogue/indexFile.go:Init"])
p("Datagrams cannot change the user's files or the catalogue",
  "Whatever datagrams hosts on the network send to the daemon, no file is created, changed or removed, and the daemon goes on showing the same about every file it has (same path, size, chunks, progress). A datagram changes an upload only if it comes from the address that upload goes to, and whatever is sent in answer goes to the IP address the datagram came from.",
  "all reachable catalogues, all finite sequences of datagrams with arbitrary bytes from arbitrary addresses, all disk faults and map orders, all upload tables",
  "A test sends some datagrams; the claim is about all byte strings, in any number and order.",
  [F+"server.go:HandleMessage", F+"serverDiscoverHosts.go:RespondToDiscoverHosts", F+"serverListFilesOnHost.go:RespondToListFilesOnHost", F+"serverStartUpload.go:StartUpload", F+"serverContinueUpload.go:ContinueUpload"])
p("What the client prints says what the daemon answered",
  "list, share, chims and clean print their whole result, and two different results never print the same: from the text one can tell every listed file with its path, size, hash and chunks, every host with its address, port and chunk ranges, and what clean did with each file and why. False of the code: paths are printed as they are, so a name with line breaks, which another host chooses, prints as further entries (any two entries with the same name have a single entry that prints the same); and one listed file without chunks, or one host that sends an odd number of bounds, ends the client before it prints anything. True for chims without further condition on the text, and for list, share and clean when no path has a line break.",
  "all lists of items with arbitrary paths, sizes, hashes and counts, all lists of hosts, all results of clean",
  "Unambiguity is a statement about all pairs of results; tests look at single outputs.",
  ["cli/cliMethodsShare.go:ListItem.Sprintf", "cli/cliMethodsList.go:ListResponse.Sprintf", "cli/cliMethodsChims.go:ChimResponse.Sprintf", "cli/cliMethodsClean.go:CleanResponse.Sprintf"])
p("A download gets the chunks that can be had",
  "As long as some host that answers has a chunk that is missing here, and delivers the chunks it has, a download of the file goes on. False of the code: every round asks every host for the lowest missing chunk, whichever chunks the hosts have. If nobody delivers that chunk, no download of the file obtains any chunk, however many downloads run, and all of them keep asking for it; if a host delivers it, it arrives.",
  "all sets of saved chunks, all offers of hosts, all interleavings of any number of downloads, calls and programs, all lengths of runs",
  "It is about runs of any length in which nothing happens, under every offer of every host; a test sees one run for a limited time.",
  [F+"serverStartDownload.go:Server.StartDownload", F+"serverStartDownload.go:Server.getGoodHosts", C+"Cat.MissingChunks"])
p("A file that is shown as complete has the content that its hash names",
  "A file the catalogue calls complete has content with the hash under which it is listed. True of a file from the moment it is shared, and of every complete file after a clean, for as long as no other program writes to it, no other file of the catalogue has the same path and it is not removed or downloaded. False of downloads: neither the hash of a chunk nor the hash of the file is required to match, so a host that answers can make a download of any hash finish with any non-empty content, which is then shown as complete and served to others.",
  "all reachable catalogues, all contents and hash functions, all interleavings of other calls, downloads and programs, all disk faults",
  "It relates the catalogue to the content of the disk for every content, hash and history; a test has an honest sender.",
  [F+"serverStartDownload.go:Server.downloadChunk", F+"serverStartDownload.go:Server.StartDownload", C+"Cat.ShareFile", C+"Cat.SaveChunk", "cli/cliMethodsClean.go:Methods.Clean"])
p("A search shows which chunks each host has",
  "Whoever searches for a file gets, from every host whose answer arrives, exactly the runs of chunks of the file that the host has. True if they form at most 127 runs; of n runs the asking daemon gets the first n mod 128 (so a host with 128 separate chunks seems to have nothing and is not used for downloads), and from 16375 runs on the host sends no answer. The search returns one entry for each answer that reached it in time and nothing else.",
  "every catalogue of the asked host reached without disk faults, every file of at most 65536 chunks and every set of chunks held, every asking daemon, every interleaving of searches and answers",
  "The limit depends on how the held chunks are spread; a test would need a host with more than a hundred separate runs.",
  [F+"serverDiscoverHosts.go:Server.DiscoverHosts", F+"serverDiscoverHosts.go:Server.RespondToDiscoverHosts", F+"messages/msgDiscoverHosts.go:DiscoverHostResponse.Serialize", F+"server.go:Server.HandleMessage"])
p("A download works on a fresh installation",
  "After the daemon has been started, a download of a file that some host offers completely can run to the end. False of the code: nothing ever creates ~/.flu-network/downloads, so on an installation where nobody has created that directory the first chunk that is delivered ends the daemon, and a download never obtains a chunk. It holds once somebody has created the directory.",
  "every home directory with an absolute path, every set of existing directories, every file and download name, every interleaving of the daemon's goroutines",
  "The developers' machines and the tests have the directory; the fault shows only on a machine where the program never ran before.",
  ["main.go:startDaemon", "catalogue/indexFile.go:indexFile.Init", "catalogue/indexRecord.go:indexRecord.saveChunk", F+"serverStartDownload.go:Server.downloadChunk"])
p("Starting the daemon a second time does no harm",
  "A daemon that is running and answers the user's commands and the network's datagrams goes on doing so until it ends, even if the daemon is started again by mistake. False of the code for commands: the new process removes the running daemon's socket before it notices that the port is taken and dies, and from then on no command reaches any daemon until one is started anew, although the first one still runs. Commands still reach the first one exactly if no other daemon got as far as removing the socket. The port, and so the datagrams, always stay with the first. A file that is shared with the second daemon in between is lost when the first one records something else.",
  "all histories of starts, ends and restarts of any number of daemons, all interleavings of their goroutines",
  "It is a race between two processes; a test would have to start the program twice and get the timing right.",
  ["main.go:startDaemon", "main.go:failHard", "catalogue/indexFile.go:indexFile.Init", C+"Cat.ShareFile"])
p("An interrupted download can be resumed",
  "If the daemon stops during a download of a file, be it between two operations or in the middle of writing a chunk's data (but not while it rewrites the progress file, see C31), then nothing is lost: started again, it knows the file as before, with the same chunks saved, all of them right. A `get` for the same hash then continues the download; with a host that has the file it fetches exactly as many chunks as were missing and ends with the complete, right file. Nobody resumes it by itself: as long as no command is about the file, the missing chunks stay missing. A download under a name that is not valid UTF-8 is known under another name after the restart, with chunks recorded as saved that are not there.",
  "every file, every set of chunks saved so far, every point of interruption of the kinds named, every later run of the daemon; fault-free histories before the interruption",
  "Crash points and subsets of chunks are too many to enumerate, and the claim joins the disk state, the restart and the download loop.",
  [C+"Cat.SaveChunk", C+"Cat.Init", F+"serverStartDownload.go:Server.StartDownload"])
p("A host that is found is listed under the address it answered from",
  "Whoever receives a host's answer to a search lists that host under the address the answer came from, so that later requests go to the host that answered. False of the code: the address is taken from the text of the answer, in which a host names the first IPv4 address of its interfaces that is not a loopback address. A host is listed under the address it sends from exactly if that is this first one; a host with a virtual interface listed before its real one is listed under an address at which nobody reaches it. And anybody can answer a search, from any address, in the name of any other host, port and chunks, which the daemon then takes for a host to download from.",
  "all interface lists, all requests, all states of the answering and of the asking daemon, all datagrams",
  "Which addresses a machine has and in which order is outside a test's control, and so is who answers a broadcast.",
  [F+"serverDiscoverHosts.go:Server.RespondToDiscoverHosts", F+"serverDiscoverHosts.go:Server.DiscoverHosts", F+"server.go:Server.HandleMessage", F+"server.go:Server.LocalIP"])
p("The daemon runs on a machine without a network",
  "A user without a network connection can start the daemon and share and list files. False of the code: after binding its port the daemon prints its own address, and without an IPv4 address other than a loopback one it dereferences nil there and ends, taking the command-line server with it; the file of its socket stays. A daemon can come to read datagrams if and only if some interface has such an address. One that loses all its addresses while it runs ends at the next search that reaches it and at the next download the user asks for; every other request is served as before.",
  "all sets of interface addresses, all executions of any number of daemons, all datagrams",
  "A test machine has a network; the failure is in a line that only prints a greeting.",
  ["main.go:startDaemon", F+"server.go:Server.LocalIP", F+"serverDiscoverHosts.go:Server.RespondToDiscoverHosts", F+"serverStartDownload.go:Server.StartDownload"])
p("A host can go on serving chunks for as long as it runs",
  "However many chunks a daemon has sent since it was started, a peer that asks for a chunk the daemon has, from an address it has not asked from before, is sent that chunk. As the code stands this is false: the file that is opened to read a chunk is never closed and the upload is never forgotten, and a downloading daemon asks for every chunk from a new port. A chunk is sent if and only if fewer addresses have been answered than there are file descriptors; after that every request for a chunk, of any file, is refused until the daemon is restarted, and one peer that fetches chunk after chunk brings this about.",
  "for every number of descriptors, every sequence of datagrams and of other changes to the catalogue, every address, chunk and content",
  "a test serves a handful of chunks and ends; the limit is reached after about a thousand of them, and only in one process",
  [C+"GetChunkReader", "catalogue/indexRecord.go:getChunkReader", F+"serverStartUpload.go:Server.StartUpload", F+"server.go:Server", F+"serverContinueUpload.go:Server.ContinueUpload"])
p("Transfers of a file that is taken out of the catalogue stop with an error",
  "If a file is unshared (as clean does), transfers of it that are under way fail and stop, the daemon goes on, and the file itself is not touched. As the code stands the first part is false both ways: a download of the file does not stop and gets no further chunk, and its next look at the catalogue ends the daemon; an upload of the file goes on to the end of its chunk. True are: the file and all other records are not touched, and requests for further chunks are refused.",
  "all reachable catalogues, all hashes, all interleavings of any number of downloads, calls and other programs, all disk faults, finite and infinite executions",
  "The outcome depends on where the download's goroutine stands when the record goes; a test sees one interleaving, and the failure is the absence of an end other than a crash.",
  [C+"UnshareFile", C+"FileComplete", C+"MissingChunks", C+"SaveChunk", F+"serverStartDownload.go:Server.StartDownload", F+"serverContinueUpload.go:Server.ContinueUpload", "cli/cliMethodsClean.go:Methods.Clean"])
p("An index file rewritten by another program is read as it was meant",
  "The index file is a JSON text (RFC 8259) that any other program can read, and any other JSON text that describes the same index, with other white space, other order of the members, other escapes, other case of the field names, additional, repeated, missing or null members, or repeated entries (of which the last counts), is read as the same index: the daemon starts on it, does not change it, and shows every record with the same hash, size, chunk size and progress as after a plain restart.",
  "all reachable catalogues, all JSON texts (nested up to 10000 deep) that describe the same index, with numbers of 64 bits",
  "JSON allows infinitely many spellings of the same value; a test tries a few files.",
  [C+"Cat.Init", "catalogue/indexFile.go:indexFile.UnmarshalJSON", "catalogue/indexFile.go:indexFile.MarshalJSON", "catalogue/indexFile.go:indexFileJSON", "catalogue/indexRecord.go:indexRecordJSON.fromJSON"])
p("However often a peer asks for a chunk, the goroutines that serve it end",
  "A peer may ask for the same chunk several times; every request starts one more goroutine on the same upload. When the end of the chunk has been met and nothing more happens, all of them have ended. As the code stands this is false: if w goroutines were started and e reads met the end, then e of them end and w - e wait for ever when e <= w, and at least one hangs for ever when e > w; all end exactly when e = w. Never does a goroutine end before the end of the chunk was met.",
  "all files (changing or not), all sections of them, all window sizes, any number of requests and acknowledgements, all interleavings of the goroutines",
  "It is a statement about the rest states of all interleavings of arbitrarily many goroutines that share a channel of capacity one.",
  [F+"senderConnection.go:SenderConnection.kickstart", F+"senderConnection.go:SenderConnection.kick", F+"senderConnection.go:SenderConnection.terminate", F+"serverStartUpload.go:Server.StartUpload"])
p("A call that reports success has done its work on disk",
  "Whichever operations of the disk fail during a call of the catalogue: if the call reports success, then ending the daemon at once and starting it again shows every file that it showed, with the same data and progress, and no other. As the code stands this is true of every call but RegisterDownload, which reports success although the progress of the download could not be written: the daemon shows the download, and after its end no daemon can list its files or show or forget the download.",
  "all calls, all failures of the operations of the disk (with or without a partial effect), all histories of successful calls before it, all environments",
  "It quantifies over all places at which the disk can fail in all calls; tests of the catalogue run on a disk that works.",
  [C+"RegisterDownload", C+"ShareFile", C+"SaveChunk", C+"UnshareFile", C+"ListFiles", "catalogue/progressFile.go:progressFile.save", "catalogue/indexFile.go:indexFile.save"])
p("A full disk costs a download, not the daemon or its records",
  "When a chunk of a file has arrived and an operation of the disk fails while it is saved, the daemon goes on, and after its end a daemon can list its files. As the code stands this is false. Saving a chunk takes two operations of the disk (three if the progress of the file is not in memory) and then the write of the progress file; if any of them fails, the daemon ends. If it is not the write of the progress, a daemon started afterwards shows what this one showed before. If the write of the progress fails after it has emptied the file or written fewer than eight bytes, a daemon started afterwards ends as soon as somebody looks at the file, and no daemon can ever list its files or forget this one.",
  "all fault-free histories, all files that the daemon knows and that are not the catalogue's own, all chunks however they arrived, all patterns of failing operations of the disk",
  "It quantifies over all places at which the disk can fail and over everything that can happen afterwards.",
  [F+"serverStartDownload.go:Server.downloadChunk", C+"SaveChunk", "catalogue/indexRecord.go:indexRecord.saveChunk", "catalogue/progressFile.go:progressFile.save", "catalogue/progressFile.go:deserializeProgressFile", "common/bitset/bitset.go:Deserialize"])
p("The window holds however often a chunk is asked for",
  "As long as no more acknowledgements arrive than packets were sent, the packets of one upload that are sent and not acknowledged never exceed the window (or one, if the window is zero), however many requests for the chunk arrive. As the code stands this is false. If no request arrives while a goroutine still serves an earlier one, every request after the first can add one packet to the bound, and there are executions where it does. If requests overlap, there is no bound at all: increments of the shared counter get lost, and with two requests for a large chunk and nothing failing, for every count k that fits the chunk there is an execution with more than 2k packets outstanding.",
  "all chunks, windows, files that change at any moment, all interleavings of any number of requests, acknowledgements and goroutines at the level of single loads and stores; for the part that holds, window plus requests below 65536",
  "It quantifies over all schedules of the goroutines; a test sees one schedule, and lost updates are rare.",
  [F+"senderConnection.go:SenderConnection.kickstart", F+"senderConnection.go:SenderConnection.kick", F+"serverStartUpload.go:Server.StartUpload"])
p("Asking for a chunk cannot end the daemon",
  "As long as no read from the disk and no write to the socket fails, no goroutine that serves a chunk of at most 2^32-1 bytes panics, however many requests and acknowledgements arrive and however the file changes. As the code stands this is false: it holds if no request arrives while a goroutine still serves an earlier one; but two requests that overlap can end the daemon. For every chunk of more than 2024 bytes whose last piece is shorter than a full packet and every window of at least two packets there is an execution in which one goroutine moves the shared position past the end of the chunk while the other is between its test for the end and computing how much is left, which makes a slice bound negative.",
  "all chunks of at most 2^32-1 bytes, all windows, files that change at any moment, all interleavings of any number of requests, acknowledgements and goroutines at the level of single loads and stores",
  "The panic needs a schedule in which two goroutines interleave inside one read of the standard library; no test can enumerate the schedules.",
  [F+"senderConnection.go:SenderConnection.kickstart", F+"senderConnection.go:SenderConnection.kick", "common/chunkReader.go:ChunkReader.Read"])
p("An answer that comes in time reaches the discovery that asked",
  "Every entry of the table of outstanding requests belongs to a discovery that has not returned: nothing is left behind. As long as every discovery that is under way is among the last 65536 requests, no two of them share an identifier, an answer with the identifier of a discovery that waits goes into the channel of that discovery, and an answer is rejected if no discovery with its identifier waits. An answer on its way into the channel of a discovery that still collects can be collected by it.",
  "all interleavings of any number of discoveries, time-outs and handlers of answers, at the level of single lock, map and channel operations; for the routing part, executions in which no discovery is under way for more than 65536 requests",
  "It quantifies over all schedules and over tens of thousands of outstanding requests; a test sees one schedule of a few.",
  [F+"server.go:Server.generateRequestID", F+"server.go:Server.registerResponseChan", F+"server.go:Server.unregisterResponseChan", F+"server.go:Server.deliverResponse", F+"serverDiscoverHosts.go:Server.DiscoverHosts"])
p("A peer cannot make the daemon hold more than the chunk it was asked for",
  "While a chunk is fetched, the buffer that receives it never has more bytes than the chunk, whatever datagrams arrive. As the code stands this is false: the buffer has the size that the last packet with offset 0 announced, whatever the size of the chunk, and for every n below 2^32 one datagram of 29 bytes makes it n bytes long. What holds: it never reaches 2^32 bytes, it never exceeds the chunk if no announcement says more, and with a sender that sends the chunk honestly it stays within the chunk however packets are lost, repeated and reordered.",
  "all sequences of datagrams and read time-outs, of any contents and length, all sha1 functions",
  "It quantifies over everything a peer can send; a test sends a few datagrams.",
  [F+"serverStartDownload.go:Server.downloadChunk", F+"messages/msgDataPacket.go:DataPacket.Split", F+"messages/msgDataPacket.go:ParseAsDataPacket"])
p("A call of the catalogue succeeds exactly when it should",
  "After any history without disk faults, on a disk that works: ShareFile succeeds exactly if there is a file at the path and no file with its hash is known; RegisterDownload exactly if the hash is unknown and the chunk size is positive; UnshareFile, Contains, Get, FileComplete, MissingChunks and SaveChunk exactly if the hash is known; Rehash exactly if it is known and its file exists; GetChunkReader exactly if moreover the chunk is saved; ListFiles always. A file that was unshared can be shared again, also if it was a download before, and is then complete, while all other entries stay as they were.",
  "all histories of calls, restarts and changes of user files without faults, all hashes, paths, contents, chunk numbers and data; sizes below 2^63, at most 65536 chunks for MissingChunks, and reads by the operating system that succeed often enough for GetChunkReader",
  "It is an equivalence over all reachable catalogues; tests only try a few calls on a few catalogues.",
  [C+"Cat.ShareFile", C+"Cat.UnshareFile", C+"Cat.RegisterDownload", C+"Cat.ListFiles", C+"Cat.Rehash", C+"Cat.Contains", C+"Cat.Get", C+"Cat.FileComplete", C+"Cat.MissingChunks", C+"Cat.SaveChunk", C+"Cat.GetChunkReader"])
p("A power loss does not make the daemon claim chunks that it lost",
  "If the machine loses power during a download and each file is afterwards as it was at some earlier moment between two calls, the daemon starts, and every chunk that it shows as saved is in the file. As the code stands this is false: nothing is flushed to the disk, so every chunk that was saved and whose call returned can be lost from the file and still be marked. What holds whatever is lost of a download: the daemon starts, still knows the file at the same path, and shows as saved exactly the chunks that were saved before the moment from which the progress file is; and if the downloaded file is at least as new as the progress file, all these are there. A power loss after RegisterDownload returned can leave the index without the progress file, and then no later daemon lists any file.",
  "all histories without faults, all files, chunk sizes, orders and repetitions of chunks, and all combinations of the moments from which each file is; the path is valid UTF-8; files torn by the power loss are left out",
  "No test can cut the power; the property is about all combinations of what reached the disk.",
  [C+"Cat.SaveChunk", C+"Cat.RegisterDownload", "catalogue/indexRecord.go:indexRecord.saveChunk", "catalogue/progressFile.go:progressFile.save"])
p("Calls made at the same time act one after the other",
  "Whatever calls of ShareFile, UnshareFile, RegisterDownload, ListFiles, Get, FileComplete, MissingChunks, SaveChunk and GetChunkReader any number of goroutines make at the same time, every call that returns gives the answer, value or error, that it gives when the same calls are made alone, one after the other, in the order in which they returned; each takes effect between the moment it is made and the moment it returns; and whenever no call is running the memory and the files are those that this sequence leaves. (Contains and Rehash take no lock: C72, C73. Other programs change files only while no call is running.)",
  "all numbers of goroutines, all calls and arguments, all interleavings of single accesses to memory and single bytes written, all disk faults",
  "The interleavings of single memory accesses and bytes cannot be enumerated or forced by a test.",
  [C+"Cat.ShareFile", C+"Cat.UnshareFile", C+"Cat.RegisterDownload", C+"Cat.ListFiles", C+"Cat.Get", C+"Cat.FileComplete", C+"Cat.MissingChunks", C+"Cat.SaveChunk", C+"Cat.GetChunkReader"])
p("A kill at any instant is a death at an operation on a file",
  "Whatever instant the daemon is killed at, also between two bytes of a write and with any number of calls waiting for the lock, the files it leaves are those before the call that was running, those after it, or those that this call leaves when it dies at one of its operations on files; so what the other properties say of a restart after a death inside a call covers every instant. In particular, after a history without faults, a kill while no call is changing the catalogue leaves a catalogue that can be opened and listed.",
  "all numbers of goroutines, all calls and arguments, all interleavings, every instant of every write, all disk faults; the calls are those of C110",
  "A test cannot kill the process between every two bytes of every write in every interleaving.",
  [C+"Cat.ShareFile", C+"Cat.UnshareFile", C+"Cat.RegisterDownload", C+"Cat.ListFiles", C+"Cat.Get", C+"Cat.FileComplete", C+"Cat.MissingChunks", C+"Cat.SaveChunk", C+"Cat.GetChunkReader"])
p("Hosts that all run this program spread the right file",
  "On any number of hosts that all run this program, whatever they share, unshare, list, describe, start to download, upload, fetch from each other and however often they are restarted, in any order: every host that has a file with hash h shows the size and number of chunks of the file F that was shared under h, each chunk it shows as saved is that chunk of F wherever it was fetched from, and a host to which it is complete has exactly F. No chunk that arrives kills the daemon or fails the hash check. And if one host has all of F, every other host can get it, the chunks also from it alone (F of at most 65536 chunks, the last of which cannot stall as in C45). Assumed: disks work; daemons are stopped between calls; chunks travel over a reliable link from an upload to an address not used before (C48); whatever is shared with hash h is F (C36 makes this necessary: hashes are compared, contents are not); other programs leave the file alone; a download begins at a path without a longer file (C33) that is neither the catalogue's nor the target of another download; paths survive JSON (C30).",
  "all numbers of hosts, all files, all histories and interleavings of calls, restarts, descriptions, uploads and transfers; each transfer in every interleaving of its packets, with failing reads and writes and timeouts",
  "A test runs one history of a few hosts; that wrong bytes never appear, from whichever mixture of partial copies a chunk comes, is a statement about all of them.",
  [F+"serverStartDownload.go:StartDownload", F+"serverStartDownload.go:downloadChunk", F+"serverStartUpload.go:StartUpload", F+"serverListFilesOnHost.go:RespondToListFilesOnHost", C+"Cat.ShareFile", C+"Cat.RegisterDownload", C+"Cat.SaveChunk"])
p("A failing disk is reported, not hidden and not fatal",
  "If operations of the disk fail while a call of the catalogue runs (in any number, each with none, part or all of its effect) and the call nevertheless reports success, then its answer, the catalogue in memory and all files are those of the same call on a disk that works. The exception is RegisterDownload: it does not report a failure to write the file with the progress (and only that), so it can succeed while that file is not written. A failing disk never stops the program inside Init (whatever files Init finds), ShareFile, UnshareFile, RegisterDownload, ListFiles, Rehash, Contains and GetChunkReader: they answer with a result or an error. Get, FileComplete, MissingChunks and SaveChunk stop the program exactly when Contains of the same hash, met by the same failures, would not find the file; otherwise they too answer with a result or an error. Assumed for the calls other than Init: no earlier call met a failure (a progress file cut short by an earlier one makes later calls panic), sizes below 2^63, chunks of at least one byte to RegisterDownload.",
  "all sequences of failures of disk operations, all fault-free histories of the catalogue before the call, all calls and arguments, all answers",
  "Every position of a failing operation combined with every part of its effect, in every state, is more than fault injection in a test can visit.",
  [C+"Cat.Init", C+"Cat.ShareFile", C+"Cat.UnshareFile", C+"Cat.RegisterDownload", C+"Cat.ListFiles", C+"Cat.Rehash", C+"Cat.Contains", C+"Cat.Get", C+"Cat.FileComplete", C+"Cat.MissingChunks", C+"Cat.SaveChunk", C+"Cat.GetChunkReader"])
p("A chunk transfer over a network that loses, repeats and reorders",
  "While a chunk with at least one byte is transferred, the network may at any time lose, repeat and reorder the packets and the acknowledgements under way (the request having arrived once). Then the receiver never panics, and the sender does not panic unless a read or a write fails. What the receiver hands to the catalogue has the length of the chunk; each of its bytes is the byte of the chunk or zero; and what its hash check says is whether the SHA1 of what it hands over is that of the chunk. It is not always the chunk: if one packet with data other than the first is lost and nothing else goes wrong, every execution is finite, and one that cannot go on has handed over the chunk with zeros in place of the bytes of that packet (for windows of two packets or more, and unless the chunk is one that can stall, see C45). This can happen to every such chunk that has a byte other than zero at offsets 1000 to 2023.",
  "all chunks of files, all contents, window capacities, interleavings of sender, receiver and network, all losses, repetitions and reorderings, all failures of reads and writes and timeouts (first part)",
  "The behaviours of the network multiply with the interleavings; a test on one machine sees almost no loss.",
  [F+"senderConnection.go:kickstart", F+"senderConnection.go:kick", F+"serverStartDownload.go:downloadChunk"])
p("A host that shows a file as complete has exactly the file, on any network",
  "Hosts that all run this program share a file among them; the network may lose, repeat and reorder the packets and acknowledgements of the chunks under way. A host that shows the file as complete then has exactly the file that was shared. (False of the code. What holds: every host that knows the file shows its size, chunk size and number of chunks; each byte of a chunk that it shows as saved, and of the file when it is complete, is the right one or zero; and a chunk that arrives never kills the daemon and counts as saved from then on. What happens instead: one lost packet is enough for one host to have a wrong file and to show it as complete, and for another host, which fetches every chunk from the first without any loss, to have the same wrong file: every hash check of the second one succeeds, because the first one announces the hash of what it has.)",
  "any number of hosts, any directories and contents, any file hash and content, any interleaving of calls, restarts, changes by other programs to other files, descriptions, starts of downloads, uploads and chunk transfers, any losses, repetitions and reorderings in them; no disk faults",
  "Losses on several links, over several hosts: the wrong file appears only at the end of a chain of events on different machines.",
  [F+"serverStartDownload.go:downloadChunk", F+"senderConnection.go:senderConnection.kick", F+"serverStartUpload.go:StartUpload", C+"Cat.SaveChunk", C+"Cat.GetChunkReader"])
p("Asking again for a file that is there, or on its way, does not affect it",
  "If a transfer of a file has already been started, calling `get` for it again does not affect that transfer, as the comment on the command says; calling `get` for a file that is complete does nothing. (The first half is false of the code: the second call starts a second download of the same file, and the daemon can die when one of the two has got the last chunk. What holds of it: as long as the daemon lives, however many calls of `get` there are, the path, the size and the chunk size that are shown stay, and a chunk shown as saved stays saved. The second half holds: the catalogue shows the same as before, and no host is asked for a chunk.)",
  "any clean environment, any reachable catalogue, any file hash, any number of calls of `get` for this file and for others, before or during a transfer, in any interleaving with calls that do not concern this file; whichever operations of the disk fail",
  "The harm needs two calls of `get` for one file and an interleaving in which both test for missing chunks before the last one is saved.",
  [F+"serverStartDownload.go:StartDownload", "cli/cliMethodsGet.go:Get", "cli/cliClient.go:Run", C+"Cat.FileComplete", C+"Cat.MissingChunks"])
p("The index file depends only on which files are known",
  "Two histories without disk faults that lead to catalogues with the same data directory, the same files, and for each file the same path, size and chunk size lead to the same index file, byte for byte, apart from the process number and the time with which it begins: the order of the calls, files that were known in between, restarts and the order in which the map is kept do not matter. (For paths of ASCII characters: the same path with other characters can be written in two ways.)",
  "any two histories of calls, restarts and changes by other programs, any files, any order of the entries of the map",
  "Two whole histories are compared; the order of the entries of a Go map differs from run to run.",
  ["catalogue/indexFile.go:indexFile.MarshalJSON", "catalogue/indexFile.go:indexFile.save", C+"Cat.ShareFile", C+"Cat.UnshareFile", C+"Cat.Init"])
p("Only requested bytes of known files leave the machine, and only to who asked",
  "Whatever hosts send to the daemon, and whatever downloads, commands and other programs do at the same time, every packet of an upload goes to a host that asked for a chunk before, the catalogue had that chunk of a file after the host asked, and the bytes are a contiguous piece of at most 1024 bytes of that file as it was then or at some time since. In front of them, in a first packet, are the hash and the size of a chunk that this host asked for and the catalogue had. An answer to a request goes to the IP address of a host that asked; it says which chunks of the file asked for the daemon has, or lists files of the catalogue with sizes, counts, hash and name. (The file may have changed or may have been unshared since, the piece need not be of the chunk asked for, and it need not fit the hash in front of it: C48, C85.)",
  "all executions of the whole daemon: any datagrams, any number of uploads, downloads, commands and searches interleaved, any changes of files by other programs, any disk faults, any reachable catalogue at the start",
  "What leaves depends on the interleaving of many goroutines with each other and with other programs that change files.",
  [F+"serverStartUpload.go:Server.StartUpload", F+"serverContinueUpload.go:Server.ContinueUpload", F+"senderConnection.go:SenderConnection.kickstart", F+"server.go:Server.HandleMessage", "main.go:main"])
p("What a chunk that was not saved leaves for the next daemon",
  "If saving a chunk of a file does not succeed, wherever the process died and whichever operations of the disk failed, then a daemon started afterwards either shows everything as before, or the progress file of the file was left with some number of bytes, which decides what happens, and all other files are shown as before. Fewer than eight bytes: looking at the file ends the daemon. At least eight, and not a multiple of eight: looking at it fails. In both cases no daemon can ever list its files again, or show, forget, share or download this one. A multiple of eight: the file is shown with the chunks as recorded before and the new one, up to eight times as many as bytes are left after the first eight, and with none of the later ones; if bytes are missing, asking whether the file is complete is answered with no if one of the chunks up to there is missing, and ends the daemon if none is, so that no `get` of the file gets as far as asking for a chunk, and one that finds a host ends the daemon; and a `get` that can still ask for chunks, the only one of this file (of at most 65536 chunks), never gets one of the later chunks and never reaches its end. A process that dies can leave any number of bytes up to the length of the whole.",
  "all fault-free histories before, all files that the daemon knows and that are not the catalogue's own, all chunk numbers below the count, all contents, all patterns of failing operations and points of death, all later histories (for a `get`: those in which no other command is about the file)",
  "Every length of the remainder of an interrupted write is a different case, for every number of chunks, and what follows is about all later runs.",
  [C+"Cat.SaveChunk", C+"Cat.FileComplete", "catalogue/progressFile.go:progressFile.save", "common/bitset/bitset.go:Bitset.Full", "common/bitset/bitset.go:Deserialize", F+"serverStartDownload.go:Server.StartDownload"])
p("After which deaths the next daemon works",
  "After the daemon has died, at whatever operation of whatever call, the next one starts and lists its files if and only if there is no index file yet, or the index file can be read and every file named in it has a progress file of at least eight bytes in whole words of eight. So after a history without faults a death is harmless exactly as follows. In the first start: if nothing or all of the index was written. In ShareFile and RegisterDownload: before anything of the index is written, or in the write of the progress file when at least one whole word and no part of a word has been written (or all of it). In UnshareFile: before the progress file is removed, or when the whole index has been written. In SaveChunk: if the progress file was left in whole words, at least one. Every other death is for ever: no later daemon lists its files.",
  "all histories of starts, calls, faults and deaths for the first sentence; for the others all fault-free histories before the call, all files, all numbers of bytes written when the process dies; in ShareFile and RegisterDownload a file that is not in the catalogue, in SaveChunk a file that is not the catalogue's own and a chunk number below the count",
  "A test can kill the process at a few points and in a few catalogues; which of all points are harmless is a statement about all of them and about all later starts.",
  ["catalogue/indexFile.go:indexFile.Init", "catalogue/indexFile.go:indexFile.save", "catalogue/progressFile.go:progressFile.save", C+"Cat.Init", C+"Cat.ShareFile", C+"Cat.RegisterDownload", C+"Cat.UnshareFile", C+"Cat.SaveChunk", C+"Cat.ListFiles"])
p("A shared file is described by one of its contents",
  "If ShareFile succeeds, the size and the hash in the new record are those of one and the same content that the file had at some moment during the call, also when another program is writing to the file at that time (a copy that has not finished, a log). So whoever downloads the file gets a content with that hash.",
  "all files, all contents that the file has at the moments when the call looks at it, all ways in which the operating system splits the reads, every catalogue reached without disk faults",
  "A test would have to change the file at a chosen moment inside the call, and there are as many moments as reads and as many contents as files.",
  [C+"Cat.ShareFile", "catalogue/indexRecord.go:generateIndexRecordForFile", "common/utils.go:HashFile"])
p("Which hosts a download turns to, and when its search for them ends",
  "In a running daemon, with any number of downloads, commands, uploads and datagrams at once: every host that a download turns to for a chunk was named in a datagram that has arrived at the daemon, in an answer that carries the number of the search which this download made last, with at least one chunk, and it is not the address that the download takes for its own. Nothing else about the answer matters: any datagram with that number, from anywhere, makes the download turn to the host and port that it names. The search of a download can end, and the download go on to the hosts found, exactly if no handler of an answer is stuck with the lock of the table of pending requests (or the search has returned already); once one is stuck, every download whose search has not returned, and every download that searches later, searches for ever: it gets no further chunk and never ends, whatever arrives. Two answers to a search that come as its two seconds end are enough for that.",
  "all runs of a daemon from its start, with all interleavings of goroutines, all datagrams, all disk faults; all downloads and all their searches",
  "Depends on the interleaving of the goroutines of downloads, of searches and of datagrams, and on answers sent by others at chosen moments; 'for ever' is not a test.",
  [F+"serverStartDownload.go:StartDownload,getGoodHosts", F+"serverDiscoverHosts.go:DiscoverHosts", F+"server.go:registerResponseChan,unregisterResponseChan,deliverResponse"])
p("A download waits while the network is away",
  "If the network goes away while a file is being downloaded, the download waits and goes on when it is back; asking for a file meanwhile fails with a message. (Refuted: the search of the next round cannot open its socket, and that ends the daemon; so does the next host that cannot be dialled. A download of a file that is not complete, of which no chunk is just being transferred, ends the daemon within a fixed number of steps of its goroutine, whatever else happens, and `get` ends it at once. The catalogue keeps showing the chunks that were there, so that a later daemon can go on from them (C95).)",
  "all clean environments, all reachable catalogues, all files, all numbers of downloads in all places of their loops, all interleavings with calls that do not concern the file and with other programs, all disk faults",
  "The network goes away at an arbitrary moment of an arbitrary interleaving; that no schedule lets the download survive is a statement about all of them.",
  [F+"serverStartDownload.go:StartDownload,downloadChunk,downloadMetaData", F+"serverDiscoverHosts.go:DiscoverHosts", F+"serverListFilesOnHost.go:ListFilesOnHost"])
p("No command ends the daemon",
  "Whatever command a user types, the daemon answers it, with a result or an error, and goes on. (Refuted, but the cases are known exactly: `share`, `clean` and `list` without an address are always answered, whatever the disk does; `chims` unless its socket cannot be opened; `list` with an address if it is an IPv4 address, a socket to it can be opened and the answer does not overrun the buffer; `get` if this host has an address, the search can open its socket and, for a file the catalogue does not have, the first host that announced it is reached, does not overrun the buffer, and does not describe the file with an impossible size or chunk size. In all other cases the daemon ends. After an answered command the same holds for the next one. One hostile host is enough to end a daemon that asks for a file it does not have.)",
  "all commands and arguments, all fault-free histories of the catalogue, all sequences of disk failures during the command (for the sufficient condition), all addresses, all answers of other hosts and none, all iteration orders of the index",
  "The answers that end the daemon are a set of datagrams that no test enumerates, and that nothing else does is a statement about all datagrams, all catalogues and all failing disk operations.",
  ["cli/cliMethodsShare.go:Share", "cli/cliMethodsClean.go:Clean", "cli/cliMethodsList.go:List", "cli/cliMethodsGet.go:Get", "cli/cliMethodsChims.go:Chims", F+"serverStartDownload.go:StartDownload,downloadMetaData", F+"serverDiscoverHosts.go:DiscoverHosts"])
p("Cleaning while other commands run",
  "A `clean` command does no harm, whatever other `clean` commands, other commands and transfers run at the same time: it does not end the daemon, and it never takes out of the catalogue a file that is there and as it should be. (Refuted. What holds: a file with which nothing is wrong at any moment stays in the catalogue; while no file is added to the catalogue no `clean` ends the daemon; and in every state of every execution a step of a `clean` ends the daemon exactly if it takes out a file that was not in the catalogue when it looked and has come back since. Two `clean` commands and one file that goes missing, comes back and is shared again are enough. One `clean` takes out a file that goes missing and comes back the same. A `clean` that runs alone does step by step what C39 says of the whole command.)",
  "all fault-free histories of the catalogue, all interleavings of any number of `clean` commands with calls of the catalogue by other commands and transfers and with changes of files by other programs",
  "The order of the steps of concurrent commands is chosen by the scheduler; the executions that end the daemon need one command to be overtaken by two others, and no test tries all of them.",
  ["cli/cliMethodsClean.go:Clean", "catalogue/catalogue.go:ListFiles,Rehash,UnshareFile,ShareFile,SaveChunk"])
p("A chunk of a file that changes while it is uploaded",
  "However another program changes a shared file while a chunk of it is being uploaded, neither side dies, and what the other side saves is the chunk as it was at one moment. (Refuted. What holds: the uploading daemon survives; the first packet announces hash and size of what was found while the chunk was opened, and every packet carries what the file contained at its place at some moment. If the packets arrive in order and the file reached into the chunk when the first was made, the downloading daemon dies exactly if a packet with data begins beyond the announced size, so not if the chunk never became longer; what it saves has the announced length, and each byte is what the file had there at some moment, or a zero where the file had ended at some moment; and if only other parts of the file changed, it is the chunk, with the right hash. If packets are lost, repeated or reordered, it dies only if another packet arrives before the first packet of the upload or one with data begins beyond the announced size, and each byte saved is what the file had there at some moment, or a zero. If the file did not reach into the chunk when the first packet was made, the second packet is taken for the announcement: the downloading daemon dies exactly if the second carries less than 24 bytes or a later one with data begins beyond the number that the file happens to have in bytes 20 to 23 of the chunk, and what it saves has that number of bytes. But a file that grows during the upload of its last chunk, or is cut off before the chunk, kills the downloader, and one that is overwritten is saved as a mixture.)",
  "all chunks up to 4 GiB, all contents of the file at every read, all schedules of the acknowledgements, all window sizes, all orders, losses and repetitions of the packets (some parts only for packets in order, as said)",
  "The file can change at any moment between two reads; a test changes it at one of them, in one way.",
  ["common/chunkReader.go:NewChunkReader,Read", F+"senderConnection.go:kickstart,kick", F+"serverStartDownload.go:downloadChunk", F+"serverStartUpload.go:StartUpload"])
p("How much a host can be made to send to another",
  "What a daemon sends to an address is in proportion to what came from there: for some small factor, at most that many packets of uploads leave for the address for every datagram that came from there. So nobody can make a host flood a third one by sending in its name. (Refuted for every factor below 32768: two short datagrams that need only carry the address as sender, a request for any chunk the host has and one acknowledgement, make it send a whole window, up to 65535 packets, and one more, even if the chunk has fewer. What holds: without an acknowledgement, no more packets leave for an address than requests came from there; after at most one request, no more than were acknowledged and one window; and no more answers to searches and listings leave for a host than searches and requests for listings came from it, each in one datagram.)",
  "all runs of the daemon with any number of hosts, requests, handlers, uploads and commands at once, all datagrams including forged ones, all contents of the catalogue and the disk",
  "Tests talk to a host that wants what it asked for; the amount sent depends on all interleavings of handlers, uploads and acknowledgements.",
  [F+"serverStartUpload.go:StartUpload", F+"serverContinueUpload.go:ContinueUpload", F+"senderConnection.go:kickstart,kick,continueUpload", F+"server.go:HandleMessage,sendToPeer", "main.go:startDaemon"])
p("What can end a running daemon",
  "A daemon in which nothing fails, whatever it is asked at once and by whomever, ends only for one of three reasons: a step of a download or a command of its own user; a datagram that is fatal for what the catalogue has at that moment, which is a request for a listing of a file it does not have, a search with an odd count for a file it has, or a listing answer that promises more than the datagram holds; or two requests for chunks from one address. Its searches for hosts never end it. At every moment such a datagram does end it, within two steps. So if no datagram is fatal and no address asks for more than one chunk, serving others never ends the daemon.",
  "all runs of the daemon with any number of hosts, datagrams with any content in any order, handlers, uploads, searches, downloads and commands at once, all moments of the run, all contents of the catalogue and the disk",
  "Tests send single messages to an idle server; the property is about every interleaving of everything the daemon does, and the fatal datagrams depend on what the catalogue has at the moment a goroutine gets to run.",
  ["main.go:startDaemon", F+"server.go:HandleMessage", F+"serverStartUpload.go:StartUpload", F+"senderConnection.go:kickstart,kick", F+"serverDiscoverHosts.go:RespondToDiscoverHosts", F+"serverListFilesOnHost.go:RespondToListFilesOnHost"])
p("Requests for chunks do not end the daemon",
  "A daemon in which nothing fails, and to which no fatal datagram of C128 comes, is not ended by requests for chunks, however many come from however many hosts: only a download or a command of its own user can end it. (Refuted: two requests for the first chunk of a file from one address, and acknowledgements of what was sent, end it, for every full chunk of the usual size and every window of at least two packets; with the same two requests the window does not limit what is sent, more than twice the window can be under way. In general, whatever the goroutines of one upload can do, a run of the whole daemon does, with the requests and acknowledgements as its only datagrams. What holds: requests never end it as long as an upload to an address begins only when the goroutines of earlier uploads to that address have ended.)",
  "all runs of the daemon with any number of hosts, datagrams, handlers, uploads, searches, downloads and commands at once, all contents of the catalogue and the disk; for the refutation every file with a full first chunk, every address and every window of two or more packets",
  "The panic needs two goroutines between particular instructions, after the datagrams went through the handlers; tests of a single connection never see it.",
  ["main.go:startDaemon", F+"server.go:HandleMessage", F+"serverStartUpload.go:StartUpload", F+"serverContinueUpload.go:ContinueUpload", F+"senderConnection.go:kickstart,kick", "common/chunkReader.go:Read,Offset,Reset"])
p("What a command line makes of the process",
  "The program becomes a daemon exactly if its arguments begin with one or more settings of the flag d (-d, --d, -d=word, --d=word, word one of the twelve words for yes or no), the last of them a yes, and the arguments then end or go on with -- or with something that does not look like a flag; whatever follows is ignored, so that a command typed after -d is not carried out. It prints help, or ends with the usage message, exactly if the first argument that is not such a setting asks for help, or looks like a flag and is nothing of this kind. With a daemon running, a request is sent exactly if the whole command line, from its first argument, stands for it as in C62: no flag is taken out of a command, no argument of a command is taken for a flag however it looks (a file called -d can be shared), and a command after any flag (-d=false list) is not carried out. Without a daemon no command does anything; the client dies.",
  "all lists of arguments, each any string of bytes; any way of reading IP addresses",
  "The flag library scans arguments before the program's own switch does, and the client is then given all of them again; tests run single command lines.",
  ["main.go:main", "cli/cliClient.go:Run,validateArgCount"])
p("Why a download ends the daemon",
  "While no operation of the disk fails, and for files of at most 65536 chunks, a download ends the daemon in its next step exactly for one of these reasons. When it begins: the machine has no address; the search for hosts cannot be made; or the file is not in the catalogue when the download first looks, some other host answers that it has chunks of it, and then no socket to the first such host can be opened, or its description is too short for what it announces, or it describes this file with sizes no file can have and the file is still not in the catalogue. When it looks whether it is done: the file is no longer in the catalogue. When it looks for the next chunk: the file is no longer in the catalogue, or has become complete meanwhile. When it searches again: the search cannot open its socket. When it turns to a host: no socket to the host can be opened, and no other transfer holds the lock or has this file under way with the host. When it receives a chunk: a fatal datagram (C20) arrives before the end of the chunk, or the chunk ends and the file is no longer in the catalogue. This holds at every moment of a daemon that does everything else at the same time. If nobody else downloads the file or takes it out of the catalogue, only the reasons of the network are left: a search or host for which no socket can be opened, or a fatal datagram.",
  "all catalogues reached without failures, all downloads, places in them and behaviours of the network; all interleavings with other downloads, commands, uploads, searches and programs",
  "Each reason needs another command, another download or a peer to act between two particular statements of a download.",
  [F+"serverStartDownload.go:StartDownload,downloadChunk,getGoodHosts", F+"serverDiscoverHosts.go:DiscoverHosts", F+"ipv4.go:newIpv4", C+"FileComplete,MissingChunks,Contains,SaveChunk,RegisterDownload"])
p("What can be told from how a command ends",
  "Whatever fails, a command that sent its request ends with a status other than 0 exactly if the client dies while it prints, and then the daemon has done what it was asked; every error, also the end of the daemon during the command, is printed and has status 0; an answer on the screen is the answer of the daemon. A command that sends nothing leaves the daemon as it was and shows no answer. On a disk that works: share shows the entry that the catalogue then has, with the path, size and hash of the file, or, if there is no such file or its content is known, an error, and the catalogue is as before; if the file is empty, it is shared and the client dies. list shows exactly the files of the catalogue, but while one of them has no chunks the client dies. get shows that the transfer was initiated, and the file is in the catalogue, or an error, and the catalogue is as before or the daemon is dead for one of the reasons of C124. clean always shows its report. chims, and list with an address, show what the hosts answered; the client dies if a host sent an odd number of bounds or lists a file without chunks, and the catalogue is not touched.",
  "all command lines, all answers of other hosts, all catalogues reached without failures (for the statements about all failures: all states and failures), files of less than 2^63 bytes",
  "Exit status and text depend on the arguments, the catalogue, the disk and what other hosts answer; tests try single commands.",
  ["main.go:main", "cli/cliClient.go:Run,callClientMethodAndPrintResponse,validateArgCount,validate,verify", "cli/cliMethodsShare.go:Share,Sprintf", "cli/cliMethodsList.go:List", "cli/cliMethodsGet.go:Get,Sprintf", "cli/cliMethodsChims.go:Chims,Sprintf", "cli/cliMethodsClean.go:Clean,Sprintf"])
p("What a program can do through the socket",
  "A program other than the command line that sends requests to the daemon's socket cannot end the daemon with a request that lacks something: it is refused with an error, and only what the network does (C124) can end the daemon. As long as the daemon answers, such a program changes the catalogue only in ways that the commands could.",
  "all requests and sequences of requests in any contents (any path, any address bytes, hash present or missing), all answers of other hosts, all catalogues reached without failures; for requests with a hash also a failing disk",
  "Tests send the requests of the command line, in which no field is ever missing.",
  ["main.go:main", "cli/cliMethodsShare.go:Share", "cli/cliMethodsClean.go:Clean", "cli/cliMethodsList.go:List", "cli/cliMethodsGet.go:Get", "cli/cliMethodsChims.go:Chims", F+"serverDiscoverHosts.go:DiscoverHosts", F+"serverListFilesOnHost.go:ListFilesOnHost", F+"serverStartDownload.go:StartDownload", F+"messages/msgListFiles.go:Serialize", C+"Contains,getIndexRecord"])
p("Asking several times at once for a file that is new",
  "If `get` is called several times at once for a file that the catalogue does not have, then of all the calls that did not find the file there at most one starts a download, whatever the hosts answer and whatever else happens, as long as nobody takes the file out of the catalogue. The first call for which a host describes the file starts it. Once the file is in the catalogue, because of another call or because it was shared meanwhile, every other of these calls returns an error and changes nothing. (A call that finds the file there starts a second download: C116.)",
  "all reachable catalogues, any number of calls of get for this and other files, all interleavings with each other, with other calls and other programs, all answers of hosts, whichever operations of the disk fail (for the first call: none fails)",
  "Depends on the interleaving of calls that each take seconds; a test sees one schedule.",
  [F+"serverStartDownload.go:StartDownload,downloadMetaData", C+"Contains,RegisterDownload", "catalogue/indexFile.go:AddIndexRecord", "cli/cliMethodsGet.go:Get"])
p("Every progress file belongs to a file in the catalogue",
"A progress file lies in the data directory only if the running daemon knows the file it belongs to. This holds after every history, whatever operations of the disk failed and wherever earlier daemons were killed: nothing is left behind that no listing shows, an empty catalogue leaves nothing but the index, and a daemon that starts knows every file whose progress file it finds. If nothing failed the converse holds too: the progress files are exactly those of the files in the catalogue. After a failure of the disk a file can be in the catalogue without a progress file.",
"for every history of calls, failures, kills and starts, every file and, for the exact form, every history without failures",
"which failure or kill at which operation leaves a file behind depends on all histories",
[C+"ShareFile",C+"UnshareFile",C+"RegisterDownload",C+"SaveChunk","catalogue/indexFile.go:AddIndexRecord","catalogue/indexFile.go:RemoveIndexRecord","catalogue/progressFile.go:save"])
p("What a call leaves behind that the disk has failed",
"When sharing, registering or unsharing a file returns an error, the running daemon is in one of few states, whatever operations of the disk failed and how. Mostly nothing has changed, neither a file nor an answer. Otherwise the error is one of the disk. Registering then leaves the new file in the catalogue with a progress that cannot be read. Sharing leaves the same, or the file is shared in full all the same. Unsharing has then forgotten the file all the same and its progress file is gone. In each of these cases all other files are shown as before, and apart from the index and that one progress file no file has changed. A file whose progress cannot be read stays so as long as the daemon runs: no call that returns changes it, the list of files cannot be had, and the file can be neither registered nor unshared.",
"for every history of calls, failures, kills and starts, every call of the three, every list of failures during it and every later call",
"the state after an error depends on which of the operations of the disk failed, and on the history before",
[C+"ShareFile",C+"UnshareFile",C+"RegisterDownload","catalogue/indexFile.go:AddIndexRecord","catalogue/indexFile.go:RemoveIndexRecord","catalogue/progressFile.go:save","catalogue/progressFile.go:delete"])
p("A datagram is handled at once, whatever else is under way",
"In every state that the running daemon can come to, however many downloads, uploads, searches and other datagrams are under way, a datagram that arrives can be handled to its end without anybody else moving, and then has the effect its handler has when taken by itself: a query is answered with the same answer, catalogue and disk end up the same, an acknowledgement is counted for the upload of its address, a response is handed over to the searches, a datagram that cannot be read changes nothing, a request that is refused changes nothing but what looking it up does, and a request for a chunk begins the upload for the address. Nothing else is sent, and nothing else in the daemon changes. The daemon dies of the datagram just when the handler by itself does. A goroutine of a datagram takes at most three steps, however the daemon goes on, and wherever it has got to it can go on to its end without anybody else moving. And a search for hosts can be made from start to end, as long as the table of searches is not locked.",
"for every run of the daemon from a start, every datagram and address, every outcome of the operations of the disk and the network while it is handled",
"the states the daemon can be in when a datagram arrives are unbounded in number and come about by interleavings a test does not control",
["main.go:startDaemon",F+"server.go:HandleMessage",F+"serverStartUpload.go:StartUpload",F+"serverContinueUpload.go:ContinueUpload",F+"serverDiscoverHosts.go:RespondToDiscoverHosts",F+"serverListFilesOnHost.go:RespondToListFilesOnHost",F+"serverDiscoverHosts.go:DiscoverHosts"])
p("Restarting after the disk has failed a call",
"When sharing, asking for a file or unsharing has returned an error, whether a daemon started on the disk will work depends on what has been left there, and exactly so. After asking for a file: just when the disk is as it was. After sharing: just when the disk is as it was, or the file had no progress file and now has one of whole words. After unsharing: just when the disk is as it was, or the index can be read and names the file no more. As long as the daemon runs on this can still change: the next call that writes the index and succeeds writes it whole, whatever it was before, and from then on a daemon started on the disk works if and only if every file in the catalogue has a progress file of whole words. So an unsharing that has failed is repaired by sharing or unsharing anything with success; but a file left in the catalogue without a progress file is written to the disk by the next such call, and no daemon started after it ever lists its files.",
"for every state reached without faults before the call that fails and every state at all before the call that succeeds, every argument, every sequence of faults",
"a test would have to fail every operation of the disk, after every part of every write, and then try every later sequence of calls and restarts",
[C+"ShareFile",C+"RegisterDownload",C+"UnshareFile",C+"AddIndexRecord",C+"RemoveIndexRecord",C+"saveIndex",C+"Init"])
p("A file that is not an index is refused, and nothing is listed that it does not say",
"Whatever stands in the index file: the daemon starts on it only if it is one JSON text (RFC 8259; bytes in strings that are not UTF-8 and surrogates without their other half stand for U+FFFD) whose value describes an index, with forty hexadecimal digits as the key and as the hash of every entry that counts. Otherwise the start fails and the file stays as it is, whatever the disk does. A daemon that has started shows for every hash the path, size and chunk size that an entry of the text under this hash states, and knows of every hash with an entry; so no damage to the file makes it show something that is not written there. On every such text, whoever wrote it, the daemon does start if the disk works.",
"for every content of the index file, every data directory, every sequence of disk faults; texts are nested not more than 10000 deep",
"the contents of a damaged file are arbitrary bytes; a test tries a few of them, and a parser that accepts too much passes all tests with well-formed files",
["catalogue/indexFile.go:Init","catalogue/indexFile.go:UnmarshalJSON","catalogue/indexRecord.go:fromJSON","common/sha1Hash.go:FromStringSafe"])
p("A progress file is believed byte for byte, whoever wrote it",
"A daemon that has just started on an index reads the progress file of a file it knows as follows, whatever stands in it. No progress file, or one whose words are torn (a length that is no multiple of eight), is reported as an error of the lookup; one shorter than the eight bytes of its header makes the lookup panic. Any other one is believed: the lookup shows the path, size and chunk size of the index, the number of chunks that the header gives as a signed number (no matter whether it fits the size of the file), and as present just the chunks whose bit is set. The question whether the file is complete is answered from these bytes alone: zero chunks are complete; a negative number of chunks is a panic; if there are enough words the answer is yes just if the chunks below the number are marked and no further bit in the word of the last of them is; if there are too few words the answer is no, or a panic when every bit there is set; a progress file that cannot be read is a panic. The chunks that are asked for (of at most 65536) are the ones below the number whose bit is not set; so with a stray bit behind the last chunk a file does not count as complete although nothing of it is missing. And a chunk is refused as missing just if its bit is not set. A chunk that is saved then is added to the bits and nothing that the file said is lost: its bits stay, the number of chunks is raised to hold the new chunk if need be, and no other file changes but the data file.",
"for every index file the daemon starts on, every known hash, every content of its progress file, every chunk number below 2^63; the calls on a working disk",
"a damaged or foreign progress file is an arbitrary sequence of bytes; tests only read back what the program itself has written, where the padding bits, the number of words and the header always agree",
["common/bitset/bitset.go:Deserialize","common/bitset/bitset.go:Full","common/bitset/bitset.go:Get","catalogue/progressFile.go:deserializeProgressFile","catalogue/catalogue.go:FileComplete","catalogue/indexRecord.go:getChunkReader"])
p("Another program can read from the data directory what the daemon shows",
"While the daemon is between two calls, its data directory says what it shows, in formats that can be stated without the program. The index file is a JSON text, and however it is read as an index, it names the data directory and its entries are the files that a lookup shows, no more and no fewer, each under its hash in lower-case hexadecimal digits, with its path (bytes that are not UTF-8 replaced), size and chunk size. The file named after the hash of a known file holds eight bytes with the number of chunks, most significant byte first, and then whole words of eight bytes, in which chunk i is present just if bit i % 64 of word i / 64 is set; it marks no chunk beyond that number.",
"for every history of calls, restarts and changes by other programs without disk faults, and every known file",
"this holds after every call of every history; tests compare what the program writes with what the same program reads, which cannot show what another program would read",
["catalogue/indexFile.go:save","catalogue/indexFile.go:MarshalJSON","catalogue/progressFile.go:save","common/bitset/bitset.go:Serialize"])

with open('/verif/properties.jsonl','w') as f:
    for x in P: f.write(json.dumps(x)+"\n")
print(len(P))

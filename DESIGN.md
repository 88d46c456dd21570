# Formal model of songokas/tftp in Lean 4

## Trusted base

* The Lean 4.33.0 kernel. Every theorem rests on a subset of Lean's three standard axioms `propext`, `Classical.choice`,
  `Quot.sound`: of the theorems in MANIFEST.json about three quarters use all three, about a fifth `propext` and `Quot.sound`, a few
  `propext` only, and eight none (`#print axioms`). There are no axioms of our own, no holes, and no decision procedure which trusts compiled
  code. `decide` and `decide +kernel` (kernel evaluation) occur only in concrete examples, witnesses of findings, and for goals over
  finite types such as bytes, where they cover the whole type.
* The translation from Rust to Lean, made by hand. Every definition of the model cites the file and lines it models, and
  says where it simplifies. RepoTests.lean checks the translation against the repository's own unit tests: the inputs and asserted outputs of
  about fifty `#[test]` functions (packets, names, padding, keys, key files, map, readers, writers, options, rates, blocking reader) are
  evaluated by the kernel on the model, and all agree. These are tests of the model, no claim rests on them.
* Cryptographic primitives are parameters of the model (`Aead`, `SigScheme`, key exchange functions) with their correctness laws only,
  e.g. "decryption inverts encryption". Nothing is claimed about secrecy or unforgeability; the theorems are about how the code uses the
  primitives. Where a theorem needs that some text does not decrypt by chance, this is a hypothesis of the theorem.
* Operating system, sockets, clocks, files: arbitrary inputs of the state machines, i.e. adversarial, except for what a
  theorem's hypotheses say.
* Mathlib is not imported.

## Conventions

* Bytes are `List UInt8`; strings are their UTF-8 bytes. Block numbers on the wire are `UInt16`; other machine integers are `Nat`, with overflow,
  saturation and truncation modelled where the code can reach them.
* Loops are state machines `step : State → Event → State × Outputs`; a run is a list of events or an inductive `Reach`; properties are
  proved by induction over arbitrary runs. There is no bound on sizes or steps.
* What a property says is stated in small specifications (namespace `Spec`, and PacketSpec, ReaderSpec, WindowSpec) which do not use the
  model's helper functions.
* Names end in `_partial` if the theorem is only part of its property. Theorems which *refute* a property on a concrete run (findings) are
  listed beside it. Beside the theorems there are examples which meet their hypotheses (Toy*.lean for the servers and clients).
* Build options modelled: features `std`, `alloc`, `encryption`, both servers (single and multi threaded). Without `alloc` only the fixed capacity map and the
  reader pool (Pool.lean), the windowed reader (FixedReader.lean) and the memory of the single threaded server (FixedServer.lean) are modelled.

## Modules (lean/Verif)

| module | models / proves |
|---|---|
| Bytes, Trim, Text | src/buffer.rs, UTF-8, `str::trim`, decimal texts, encryption level texts |
| PacketSpec, Packet, PacketProps, Panics | src/packet.rs (C01-C04, C42); the decoder again with every slicing made explicit (C29) |
| BlockMapper | src/block_mapper.rs (C05) |
| WindowSpec, WindowProps, ReaderSpec, Readers, ReaderApi, SingleSim, MultiSim, SeekSim, ReaderProps | src/readers/* : the three block readers and the window they implement (C06-C09) |
| Writer | src/writers/single_block_writer.rs (C10) |
| TransferModel, TransferInv, TransferFin, TransferProps, TransferLive, ReceiverProps | sending and receiving loops of client and server with a network which loses, repeats and reorders (C11-C15, C21) |
| Negotiate*, Sizes | src/client/extensions.rs, src/server/extensions.rs and the size arithmetic (C16-C18, C23, C24, C28) |
| Path, Fs, Disk | src/server/validation.rs, std-binary/src/io.rs on a file system with links (C19, C20, C55) |
| Crypto, CryptoProps, Stream | src/encryption.rs, src/encrypted_packet.rs, encrypted stream reader and writer (C26, C27, C36) |
| Base64, Keys, KeyFiles | key texts, src/key_management.rs, std-binary/src/encryption_io.rs (C33-C35, C46) |
| Server, ServerTable, ServerAdmit, ServerTimers, ServerFair, ServerLoop | src/server/* with the single threaded loop (C22-C24, C38-C41, C45, C47) |
| Life, Multi, MultiTimers | one connection's life; src/server/multi_thread.rs; both servers treat each client like a server of its own (C50, C51) |
| Client, ClientRetry, ClientForeign, ClientPlain, ClientSecure | src/client/* from the first request to the result (C25, C30-C32) |
| EndLink, EndWorld, EndAgree, EndPieces, EndUp, EndDown, EndFull, EndOnce | real client, real servers and network composed (C52-C54) |
| Blocking, Pool, Rates | std-binary/src/blocking_reader.rs (C37, C49), src/map.rs and pool_reader.rs (C43, C48), src/flow_control.rs and wait_control.rs integer parts (C45) |
| Sealed, SealedCli, SealedEnd | file encryption with a private key: client with encrypting reader / decrypting writer, composed with real server (C56, C57) |
| Listing | std-binary/src/io.rs `list_directory`; names of listed and stored files (C58, C59) |
| Sessions | the known hosts file over many runs, crashes and concurrent appends (C60, C61) |
| Accept | which uploads are accepted and where they are stored (C64) |
| Sync | std-binary/src/sync.rs (C62) |
| Local | the client's disk during a download (C63) |
| Options, ToyOptions | std-binary/src/config.rs, cli.rs: from the command line to the configurations (C65, C66) |
| Poll, PollProps, PollLive, PollOrder, ToyPoll | std-binary/src/socket.rs poller and socket numbers with the receiving part of src/server/single_thread.rs (C67) |
| ClientTimeout | the clock of the client's transfer (C68) |
| Flood | what the server sends to silent clients (C69) |
| ToyTime | examples for C68, C69 |
| Requests | the client's request (C70) |
| WaitSpec | exact idle wait of the server as a function of its history; rate control restart (C45) |
| Sources, SourceCli, SealedUp | block readers and uploads over arbitrary sources; uploads encrypted while read (C71) |
| Utf8 | which byte strings are text (C03) |
| MultiDown | the multi threaded server after its main socket failed (C50) |
| GrowSource | `BlockingReader` and `StreamReader` over it as sources (C72, C73) |
| GrowUp | sources which block; uploads of growing files (C72, C73) |
| OptionProps | C04 and C42 for whole datagrams |
| MapProps | C48 for whole histories of calls |
| EndLive, EndLiveDown, ToyLive | no reachable state of a running transfer is a dead end (C74) |
| EndStart, ToyStart | from the first request the transfer can be carried out (C75) |
| KeyExchange, ToyKeys | key pairs and ciphers of both processes (C76) |
| Authority, ToyAuth | what somebody without a listed key can do (C77) |
| ServerStarve | C40 with clients joining and leaving: bound on overtaking, starvation |
| Crash | C29 for whole servers and the client: exactly which datagrams end the process |
| HostCut | C61 byte by byte and for any number of clients |
| ErrorText | texts of refusals (C78) |
| RepoTests | the unit tests of /repo, evaluated on the model (tests of the translation, nothing is proved there) |
| SizesRun, SizesCli | C28 over whole runs of both servers and of the client |
| Retransmit | C39 in terms of the file, the confirmed bytes and the datagrams, for the life of a connection in both servers |
| PollWake | the sleep of the single threaded server ends when something arrives (C79) |
| Rfc, RfcDown, RfcUp, ToyRfc | peers written from the RFCs against this server (C80, C81) |
| RfcRounds | lossless transfers from window to window (C82) |
| RfcServer | servers written from the RFCs, the other side of C83 |
| RfcSend | this client uploads to such a server (C83) |
| ToyRfcSrv | examples for C83 |
| RfcTake | this client downloads from such a server (C84) |
| RfcCliRounds | lossless transfers of this client with such servers (C85) |
| EndFirst, EndOrder, ToyOrder | which datagrams can be taken for the first answer; C54 with an encrypted handshake |
| Demux, ToyDemux | which socket gets a datagram (C86) |
| FixedReader | the windowed reader of builds without allocator (C87) |
| FixedServer, FixedProps | the memory of the server in builds without allocator (C88) |
| FixedText | packets in builds without allocator (C89) |
| Machine | sizes and block numbers in machine arithmetic (C90) |
| FixedSeal | sealing and sealed files in fixed memory (C91) |
| FixedKeys | key files in fixed memory (C92) |
| FixedNames | normalisation and opening of files in fixed memory (C93) |
| Clock | the server's timers with a clock which can be set back (C94) |
| White | trimming in terms of characters and Unicode's White_Space; C19, C35, C58 stated with it |
| Numerals, NumeralUse | what a text of digits means, the parser and printer of option values are shown to agree with it; C16, C17, C21, C66, C78 stated with it |
| Nonces | C95: nonces of file encryption are never repeated |
| ClientClock | C96: the client's timers with a clock which can be set back |
| RateUpload | C45: the byte counter of the rate control in a whole upload |
| ClientWait | C97: how long an uploading client sleeps |
| RttMeasure | C98: which round trip times are measured |
| RttRun | C98: the measurements in whole runs of a client |
| Toy, ToyClient, ToyMulti, ToyEnd, ToyFull, ToyForeign, ToySealed | instances for examples and witnesses; model no code |



## Properties

For each property: what is modelled, how it is proved, and what is missing or false. Exact theorem names are in MANIFEST.json.

* **C01** Packet wire round trip (proved). Byte level encoder and decoder as total functions; round trip by induction on strings and option lists; stated against the relation of PacketSpec.
* **C02** Encoding into a caller supplied buffer is all-or-nothing and agrees with the byte encoding (proved). `to_buffer` modelled with an explicit buffer of given capacity; equal to the byte encoding, or untouched and refused.
* **C03** Malformed datagrams are rejected and accepted ones have the TFTP shape (proved). Inversion of the decoder against PacketSpec: whatever is accepted is a datagram of the specified shape.
* **C04** Unknown options never affect the decoded request (proved). The option list with unknown options removed decodes to the same request.
* **C05** Block numbers are mapped back to the true block index across wraparound (proved). State machine on (current, next) sets; invariant relating it to the newest true index; induction over the sequence. Without the displacement bound false (witness).
* **C06** Single block reader emits the file in order, one outstanding block, and never loses data (proved). Invariant over all sequences of calls; specification as a predicate on the history of calls and answers (ReaderSpec).
* **C07** Windowed in-memory reader emits exact file slices and respects the window (proved). As C06, by simulation of the sliding window of WindowSpec.
* **C08** Seeking reader emits exact file slices and respects the window (proved). As C07. A future acknowledgement confirms everything (witness, outside the hypotheses).
* **C09** All readers are observably the same sliding window sender (proved). All three readers simulate the same window specification, hence answer alike.
* **C10** The writer stores blocks exactly once and in order (proved). Induction over received packets; a file which takes only part of a block loses bytes (witness).
* **C11** End to end: the received file is always a prefix of the sent file (proved). Product of both loops and a network which keeps every datagram; invariant; datagrams older than the block number space are excluded by an age limit or small files.
* **C12** End to end: success means the whole file was transferred (proved). As C11: both sides' success implies that everything was written.
* **C13** Reported transfer size equals the file size (proved). As C11, totals.
* **C14** Transfers make progress when the network does (proved). From every reachable state an explicit schedule completes the transfer.
* **C15** Acknowledgement policy (proved). Receiving side alone against arbitrary datagrams.
* **C16** Server never agrees to more than it was configured for (proved). Inversion of the server's option parser and of whole connections.
* **C17** Client never accepts options it did not ask for (partial). Inversion of the client's parser. An error packet is sent only for options which were not requested (witness for bad values).
* **C18** Client and server agree on the negotiated options (proved). Composition of both parsers through the bytes on the wire.
* **C19** Requested file names can not escape the server directory (proved). Normalisation of names over UTF-8 bytes; no component `..`, not absolute.
* **C20** Server side file opening stays inside the configured directory (proved). File system with directories, files and links; canonicalisation as the kernel does it; nothing outside is opened or (without links inside) changed. Finding: with a link inside, a refused upload creates an empty file outside.
* **C21** Upload size limit (partial). Invariant of the writing loops. The single threaded server goes on after the failing block (witness).
* **C22** Connection table bound and isolation (proved). Table as a list; size and uniqueness for all histories, both servers.
* **C23** Authorized keys are enforced (proved). Inversion of request admission, whole connections.
* **C24** Required full encryption is enforced by the server (partial). The request must be sealed to the server's key; the level of the transfer can be lowered by the client (witness).
* **C25** Client encryption is never silently downgraded (partial). Whole runs of the client against arbitrary answers. Known server key: nothing is ever sent in the clear. Unknown key: false (witnesses).
* **C26** Length hiding padding round trip (proved). Padding arithmetic and round trip for all lengths.
* **C27** Packet encryption round trip and framing (proved). Framing with the cipher as parameter, both directions, client sockets included.
* **C28** Datagrams never exceed the negotiated size (partial). Exact lengths of every kind of packet at every level; then an invariant of the readers (no buffer longer than a block) carried through all runs of both servers (via C50) and of the client. Exceptions with witnesses: encrypted requests, a server which confirms no encryption inside a sealed handshake, the client's complaint about unrequested options.
* **C29** No datagram can crash the peer (partial). Every arithmetic, indexing and slicing operation reachable from a datagram is modelled with an explicit panic; panics characterised exactly (iff) for decryption and name quoting, absent elsewhere; then lifted to whole servers and the client: the process ends exactly on the characterised datagrams.
* **C30** Foreign datagrams do not influence a client transfer (partial). Whole runs of the client. Proved for unencrypted transfers; encrypted ones are aborted by anybody (witness).
* **C31** Client request retry and timeout (partial). Retry loop with explicit clock readings; proved for silence; a flood of foreign datagrams postpones the timeout (witness).
* **C32** Transfers with servers ignoring options (partial). Whole runs against option-less servers; downloads are cut (witnesses).
* **C33** Key text encoding round trip (partial). Concrete base64 model; exact set of accepted texts.
* **C34** Known hosts lookup returns what was stored (proved). Line based model of the known hosts file.
* **C35** Authorized keys file parsing (partial). Line based model; lines which are not UTF-8 are skipped (witness).
* **C36** File stream encryption round trip (proved). STREAM cipher as parameter; induction over blocks, for every sequence of buffer sizes.
* **C37** Reading a file which is still being written loses no data (proved). Two-thread interleaving at the read and the load of the flag.
* **C38** Idle clients are removed, active ones are kept (proved). Explicit clock; histories of both servers.
* **C39** Retry back-off is bounded (proved). Multiplier arithmetic over all histories.
* **C40** Round robin service of clients (partial). Round robin pointer over all histories while nobody joins or leaves; otherwise false (witness). With joins and leaves: potential argument (position in the turn order) bounds overtaking by max_connections*(changes+1), and an explicit family of histories starves a client for ever.
* **C41** Errors are only shown to authorized peers when configured (proved). Case analysis of admission: what is answered to whom.
* **C42** Repeated options: the last occurrence wins (proved). Decoder of option lists.
* **C43** Reader pool hands out each slot to one owner (proved). Pool model; ownership invariant over all histories.
* **C44** Encryption level text round trip (proved). Texts of all levels; parser inversion.
* **C45** Rates, retry interval and idle wait are bounded (proved). Integer arithmetic around arbitrary floating point results; overflow witnesses outside the hypotheses.
* **C46** A private key given as a file name is read from that file (partial). Text first, then file; false for file names which are base64 (witness).
* **C47** Receiving from clients is fair and can not block new clients (proved). Main loop with its receive pointer; every waiting client is served within one round.
* **C48** The fixed capacity map is a finite map with a size limit (proved). Refinement to a finite map with a size limit.
* **C49** A short block ends a file which is still being written (partial). Blocking reader and block reader together; false for the finish race (witness).
* **C50** Every client sees its own server (proved). Each event of a server with all its clients is, for one address, its own events of a server with only this client; both servers.
* **C51** Finished threads free their slot (proved). Retain step of the main loop over all histories.
* **C52** Whole upload: success means that the server stored the file (proved). Real client, real server, adversarial network, from request to result; invariants in EndUp; EndFull extends it to the whole servers with arbitrary other clients.
* **C53** Whole download: success means that the client has the server's file (proved). As C52, for downloads.
* **C54** Losing or overtaking the acceptance does not cut a download (partial). EndFirst.lean: where every datagram of the server comes from (acceptance, refusal, transfer), by induction over the run; a refusal is read as an error or not at all. EndOrder.lean: C53 for runs in which the datagrams arrive in any order from the beginning, if the ciphers of handshake and session do not open each other's ciphertexts. EndOnce.lean: the acceptance is never repeated. Witness: ToyEnd.lean.
* **C55** A file reported as stored stays stored (partial). All uploads on one file system; proved without `allow_overwrite`; with it false (witnesses: duplicate request empties the file, two uploads mix).
* **C56** Encrypted files come back whole and genuine (proved). Client with the stream reader/writer of src/encryption.rs composed with real server and network (Sealed, SealedCli, SealedEnd). Upload: the bytes in the reader are header and pieces; download: whatever datagrams arrive, the writer passes on genuine pieces in order; with an honest server the blocks are those of the sealed file.
* **C57** A server without the key cannot cut an encrypted file (partial). Same model, arbitrary server. Proved when the agreed block size is at least the one of the encrypted file; refuted by a run otherwise.
* **C58** A directory listing shows exactly the files and every line can be requested (partial). list_directory and create_server_reader on the file system of Fs.lean; lines are specified without reference to the code (Spec.Lines, unique by lines_unique).
* **C59** What was stored under a name is found under this name (proved). Invariant over histories of Disk.lean: directories and links stay, so the name resolves to the same location.
* **C60** A server key, once recorded, is the one used in all later runs (proved). The client's handling of the file as a function over a list of runs; invariant: entries once found stay, by c34's lookup lemma.
* **C61** Recording a server key survives crashes and concurrent clients (partial). The append as its list of writes, cut after any byte or merged with those of other clients; lookups computed on the resulting file, then carried through all later runs.
* **C62** Synchronisation sends each file of the directory, under its relative path, and ends it when it is complete (proved). The event loop as a fold over watcher events; invariant: the map holds transfers of that very file. closedNext is a recursive specification on the history.
* **C63** A download changes only its own local file (proved). The client of Client.lean with a file system; invariant over runs: the file system differs at most at the opened location.
* **C64** Uploads which are possible are accepted and stored where their name says (proved). Induction over the missing directories with the model of std path resolution of Fs.lean.
* **C65** The server keeps the limits and the security given on its command line (proved). try_into as a function from options and files; composition with C16, C22, C23, C24, C41 for whole histories.
* **C66** The client does what its command line says (proved). The same for the client; composition with C25 (known key) and with the hypotheses of C52/C53.
* **C67** No datagram waiting at the server is overlooked (proved). Poll.lean adds sockets, queues, the one shot poller and the set of notified numbers to the loop of ServerLoop.lean (ploop_loop: same behaviour). Invariant: a socket is notified, or armed and in the poller's queue if something waits. Progress measure: position in the poller's queue, then in the round.
* **C68** A client gives up exactly when its transfer stands still (proved). Client.lean's state carries the time of the last progress (last_received). step_since: an iteration sets it to now exactly if it is progress in the sense of the specification. Induction over the iterations gives since_progress: the clock is the time of the latest progress. The timeout branch then gives both directions.
* **C69** What the server sends to a silent client is bounded (proved). silent_step: an event of a silent client ends the connection, changes nothing, or moves the sliding window of WindowSpec. Rate: once something has been sent in the span the retransmission timer cannot fire in it, so at most the window is sent. Total: invariant with a ghost count G of repetitions: sent <= W*G + position in the window, multiplier >= min 255 (2G+1), last sending time >= t0 + retry*backoff G.
* **C70** The request says what the user asked for (proved). requestOpts_demand: the option map built by create_extensions from the options adjusted in send_file/create_initial_socket is the table Spec.demand, written from the job alone. query_exts: induction over the iterations: the extensions of the request change only by the retry without options. Decoding by C01.
* **C71** Encrypting while uploading changes the content only (proved). Sources: the three block readers written once more over an arbitrary Read + Seek; reader_file: over a regular file they are the readers of Readers. Simulation: over any source which delivers the blocks of a file the generic readers answer like those of a regular file with that content (SingleRel, MultiRel, SeekRel); SourceCli lifts it through the upload loop and the handshake (which does not depend on the content) by induction over the iterations; SealedUp: StreamReader delivers the blocks of Spec.sealed (read_step, sealed_blocks of C56).
* **C72** A file can be uploaded while it is being written (proved). `Grow`/`growing` (GrowSource.lean) is `BlockingReader` (Blk, C37) as a source; the writing thread's actions are interleaved before the read and between read and load. `growing_step`: each read delivers the next bytes of the *finished* file or blocks without loss. `run_waits` (GrowUp.lean) lifts this through readers (C71's Sources.lean) and client to whole runs.
* **C73** A file can be encrypted and uploaded while it is being written (proved). `sealingOver` is `StreamReader` over any source; `sealing_step` composes it with `growing_step`; then `run_waits`.
* **C74** No state of a running transfer is a dead end (proved). EndLive.lean/EndLiveDown.lean: from a reachable state the invariants of C52/C53 (`up_reach`, `down_reach`) give a view of both windows; a turn of the sending side repeats the oldest unconfirmed block, the receiving side stores it or acknowledges what it has, the acknowledgement moves the sender's window; induction on the number of missing blocks.
* **C75** A client and a server which come to an agreement can carry out the whole transfer (proved). EndStart.lean: the client's request is read by the server (`request_read`), the acceptance by the client (`Accepts.asked`, from the agreement of both negotiations C18/C27), then C74.
* **C76** Both ends of a session compute the same keys (proved). KeyExchange.lean models the key handling over an abstract curve; the texts on the wire by C18 (`c18_agreement`). ToyKeys.lean: a small commutative curve with ciphers depending on the key, a whole upload with full encryption.
* **C77** Files are reached through signed sessions only (partial). Authority.lean: a datagram which yields data at a mandatory level splits into header, ciphertext, tag and nonce which open under the session cipher (`decrypt_split`, `data_sealed`); invariants of the life of one connection from the request on (`life_origin`, `Spec.Alive`), carried to both servers by C50. Findings as theorems about every server. ToyAuth.lean: instances.
* **C78** What the server says when it refuses a request (partial). ErrorText.lean: the answers with their texts (`Srv.answers`); the parsing of options is followed error by error and each sentence is shown to be true (`Spec.Told`, `parse_told`); texts cut at a character boundary stay texts (`text_cut`), so the codec's round trip (C01) and the packet encryption's (C27) apply. `c78_same_answers` ties this to `Srv.newConn`, whose replies have empty texts.
* **C79** The single threaded server sleeps only while there is nothing to read (partial). PollWake.lean: an invariant over all histories of Poll.lean: sockets which are not armed are in the list of notified ones with something to read (`PollSt.Fresh`), unless the last thing taken from them was an error; a server which sleeps has asked all of them (`sleep_asked_all`), so all are armed. `Spec.reported` is what the poller returns, `Spec.sleeps` the time the server asks for.
* **C80** Any RFC client can download (proved). Rfc.lean: a non-deterministic RFC receiver, written from the RFCs, and a network with all datagrams ever sent. RfcDown.lean: an invariant which links the server's window (SInv, TransferInv.lean) with what the peer has; completion by a measure (blocks the peer lacks): wait for the retransmission time, send the window, hear it, acknowledge.
* **C81** Any RFC client can upload (proved). RfcUp.lean: the counterpart of RfcDown.lean for the server's receiving side (RInv, TransferInv.lean): confirmed ≤ written ≤ blocks ever sent.
* **C82** Lossless transfers never wait (proved). RfcRounds.lean: lockstep invariants (UpLock, DownLock) over the blocks of a window and the windows of a file, by induction on both, with the invariants RInv and SInv of TransferInv.lean.
* **C83** Uploads to other servers (proved). RfcSend.lean: invariant SdInv over the client (waiting, sending, done), the server and all datagrams under way, with the invariant SInv of the sending side (TransferInv.lean); completion by induction on the blocks the server does not have.
* **C84** Downloads from other servers (partial). RfcTake.lean: invariant TkInv over the client (waiting, receiving, done), the server and all datagrams under way, with the invariant RInv of the receiving side (TransferInv.lean); completion by induction on the blocks the server has not got confirmed; c84_lost_ack by an invariant of the stuck state.
* **C85** This client never waits for a timer on a lossless network (proved). RfcCliRounds.lean: induction over the windows and the blocks of a window, with the state of the client's receiver (written, last acknowledgement) and sender (window base and top) exact after each block.
* **C86** A connection of the server handles only datagrams which its own client sent (partial). Demux.lean: the server's sockets as the kernel sees them (port, owner, peer, queue with the true source) beside either server; invariant over all events: one socket for each connection, its peer is its owner, what is queued came from the owner or arrived before `connect`. Instances for both servers from C50's step theorems. Witness ToyDemux.lean.
* **C87** The windowed reader in fixed memory sends the same as the one which allocates (partial). FixedReader.lean: `next` with K slots where a failed push falls back to the last slot. Up to K blocks per window the two `next` are the same function; beyond that the state after n blocks is computed in closed form by induction.
* **C88** The server in fixed memory serves each client with its own reader, or says that it is busy (partial). FixedServer.lean: table and pools with the events sweep, use, download, upload; refinement to a list of connections which own their readers, with the invariant that handles and filled slots are in bijection. Consequences in FixedProps.lean.
* **C89** Packets in fixed memory: what does not fit is refused or left out, what fits is read as everywhere (proved). FixedText.lean: the decoder with capacities; acceptance is characterised by a layout relation (ShortWire), independent of the decoder, by induction over the option list; the other statements follow from it and from the bounds of Sizes.lean and ErrorText.lean.
* **C90** Sizes and block numbers are computed without overflow (proved). Machine.lean: the same computations with checked 16 and 64 bit arithmetic, shown equal to the model's; the block mapper's counters grow by at most one per datagram (induction).
* **C91** Encryption in fixed memory: same datagrams and files, never beyond the buffers (proved). FixedSeal.lean: push and extend with a capacity, `set_len` undefined beyond it and showing arbitrary old memory; the functions of Crypto.lean and Stream.lean written with them and shown equal within the size bounds of C28.
* **C92** Key files in fixed memory (proved). FixedKeys.lean: the line iterator and the key list with capacities; a file is decomposed into lines, the long ones are removed and the result is compared with KeyFiles.lean on the rest.
* **C93** File names in fixed memory (proved). FixedNames.lean: the fold with ignored append results is compared with the unlimited one (only the last separator can be missing), `pop` with UTF-8 encodings; a path ending in `..` always resolves to a directory, so nothing is opened by it.
* **C94** The clock of builds without the standard library (proved). Clock.lean: the server steps with a partial subtraction; an invariant (all timers lie in the past) shows that they agree with Server.lean along a forward clock.
* **C95** No nonce is used twice for a file (proved). Nonces.lean: the calls of the cipher are listed independently of the cipher (one list for every AEAD), with counters strictly increasing below 2^32; the nonce of StreamBE32 is written down byte by byte in Spec.pieceNonce and shown injective in the counter within this range.
* **C96** The client's clock in builds without the standard library (proved). ClientClock.lean: the three loops of the client with the timers whose readings can panic, among them those which only feed metrics; simulation by the client of Client.lean for clocks which go on, and the exact conditions otherwise.
* **C97** An idle uploading client sleeps, and never too long (proved). ClientWait.lean: the counter no_work beside the states of Client.lean; what a run shows of each round (sent, wait, source of the datagram) determines the counter; induction over the rounds, the period of 128 quiet rounds by evaluation for all 256 counter values in the kernel.
* **C98** Measured round trips are round trips (proved). RttMeasure.lean: the two fields of the rate control which time a round trip, as a state machine over blocks sent and acknowledgements; invariant: the block being measured is in flight since the recorded time. RttRun.lean: the calls made by the sending loop in a run of Client.lean (with its block mapper and last acknowledged block).

## Findings (refuted properties)

Each is a theorem on a concrete run of the model.
* Download cut to its first block when the acceptance is lost or overtaken (`Toy.c54_lost_acceptance_truncates`) or the server ignores options (`c32_download_truncated`).
* A delayed duplicate of an upload request empties the stored file if overwriting is allowed (`Toy.c55_duplicate_request_empties_file`, `c55_repeated_request_truncates`); concurrent uploads of one name mix (`c55_concurrent_uploads_mix`).
* Encryption is switched off by a plain answer when the server key is not known (`c25_*`).
* Any undecryptable datagram from anywhere aborts an encrypted transfer (`c30_foreign_aborts_encrypted`); foreign datagrams postpone the timeout for ever (`c31_foreign_blocks_timeout`).
* Panics on short data level packets and long names (`c29_data_level_panic`, `c29_long_name_panic`).
* The single threaded server goes on writing beyond the size limit (`c21_single_thread_unbounded`, `c21_single_thread_bypass`).
* A refused upload through a link creates files outside the directory (`c20_refused_upload_creates_outside`).
* The finish race of the blocking reader ends a file early (`c49_finish_race`).
* Short writes lose bytes (`c10_short_write_loses_bytes`); stray block numbers break the mapping (`c05_stray_block_breaks_mapping`); a future acknowledgement confirms everything (`c08_future_ack_confirms_everything`).
* File names which are base64 are taken for keys (`c46_file_name_used_as_key`); key texts of wrong length are accepted (`c33_*`).
* A datagram of a third party during the handshake becomes file contents or switches encryption off (`Toy.c30_foreign_datagram_corrupts`, `Toy.c25_foreign_datagram_downgrades`).
* A server without the key can cut an encrypted file unnoticed by agreeing on a smaller block (`Toy.c57_server_truncates`).
* Names with line breaks can be uploaded and forge entries of the directory listing (`c58_newline_forges_entry`); a stored file with the name of the listing cannot be fetched (`c58_listing_hides_file`).
* A crash while a key is recorded can pin the host to the all-zero key for ever (`c61_crash_blocks_host`), and two concurrent appends can pin a host to another server's key (`c61_concurrent_appends_mix`); without an existing known hosts file a client without server key never connects (`c60_missing_file_blocks`); `host` and `host:69` are pinned separately (`c60_other_spelling_not_pinned`).
* `sync --start-on-create`: a file created again before it was closed leaves its first transfer waiting for ever (`c62_recreated_never_told`).
* A download that fails after it was accepted has already emptied an existing local file (`c63_failed_download_truncates`).
* With `--authorized-keys` or `--require-full-encryption` but no `--private-key` the server starts and silently serves nobody (`c65_no_private_key`).
* An empty private key file, or one that starts with an empty line, is accepted as the key of 32 zeros (`c65_empty_key_file`).
* `client host` without a port fails although 69 is meant to be the default; it only works with `--listen` (`c66_no_default_port`).
* `--encryption-key` with 32 characters as documented yields a key whose last 8 bytes are zero (`c66_short_encryption_key`).
* Socket numbers wrap after 2^32-1 accepted clients and are not checked against live ones; two clients with one number lose notifications (C67).
* C71: `--prefer-seek` together with an encryption key: the upload fails with an I/O error as soon as one block has to be repeated, because StreamReader::seek always fails (src/readers/encrypted_stream_reader.rs:92-97).
* C76: generators are copied (`Rng: Copy`, `rng.clone()` for each packet): with a generator which keeps its own state, all packets of a session have the same nonce and the session key equals the key of the handshake (`c76_copied_generator`); only generators like `OsRng`, which draw from outside, are safe, and nothing in the API says so.
* C77: the signature in a request covers the session key only. Somebody who has seen one accepted request in the clear can send its options again at any time from any address with another file name and operation (`c77_credentials_reused`), and any request can be repeated (`c77_request_replay`): with `allow_overwrite` this empties files.
* C77: at level `data` the block number is outside the tag: with the client's address and no key, blocks can be stored in another order or repeatedly (`c77_header_not_covered`, `c77_block_number`), and an error packet in the clear ends the transfer (`c77_plain_error`).
* C40: a client can wait for ever while another with the same wants is served again and again, if a third one joins and gives up repeatedly (`c40_starvation`).
* C29: one unauthenticated read request for a name of forty ideographic spaces (U+3000) ends a server without list of authorized keys: the name is blank, hence refused, and quoting it cuts a character (`c29_blank_name_ends_server`).
* C61: an append to the known hosts file which is cut inside the text of the key locks the host out for ever (`c61_cut_locks_out`); two clients which record the hosts `a` and `b` at once can make the host `ab` unreachable (`c61_third_host_blocked`).
* C78: refusals because of the name or the size go out in the clear although the request was sealed, and also with `error_to_authorized_only` (`c78_size_partial`, `c78_name_partial`); a client which sent the request sealed ends with a decryption error instead of the reason (`c78_name_lost` for short names).
* C78: a download of a missing file is answered with code 3 (disk full) instead of 1 (file not found) (`c78_file`); a malformed authorization key is reported as a malformed signature.
* C28: if the server answers a sealed request with an option acknowledgement naming the level `none` (or an optional one), the client keeps the handshake cipher but not the reduced payload; its datagrams are 41 bytes longer than agreed (`c28_unsealed_level_too_long`). Its error packet for unrequested options in a sealed handshake is 41 bytes too long as well (`c28_complaint_too_long`).
* C79: when reading a client's socket fails (ICMP port unreachable), the single threaded server does not arm the socket again; the next datagram of this client does not wake it (`Toy.c79_error_delays`).
* C84: a client which downloads acknowledges the OACK of the server only once (src/client/receiver.rs:167-170) and disregards repeated OACKs in its receive loop. If this acknowledgement is lost, a server which follows RFC 2347 and waits for it can never start: the download fails by timeout, however often the server repeats its OACK (`Rfc.c84_lost_ack`). This code's own server does not wait.
* A new connection's socket is bound to the server's port with `SO_REUSEPORT` before it is connected (std-binary/src/socket.rs:121-126), and `connect` does not empty its queue: a datagram from any address which arrives in between is handled as the client's. One block of data sent to the server's port at this moment completes somebody else's unencrypted upload with its own contents (`Toy.c86_stolen`, C86).
* Without `alloc`, `MultipleBlockReader` ignores that its vector of 16 buffers is full (src/readers/multiple_block_reader.rs:106-113) and overwrites the last one, which holds a block in flight. With a window above 16 it no longer stops at the window and, after a retry, sends the wrong bytes under the overwritten block's number (`c87_no_window`, `c87_corrupt`, C87). Only the command line limits the window to 16.
* Without `alloc` the single threaded server sends the acceptance before it looks for room in its table of 128 clients (src/server/single_thread.rs:346, 403-405). With `max_connections` above 128, which only the command line excludes, a client is told that it may begin and there is no connection (`c88_lost`, C88).
* src/map.rs is not part of any build: `mod map` in src/lib.rs:69-79 is an inline module which re-exports `BTreeMap` or heapless' `FnvIndexMap`; the file also needs `arrayvec`, a development dependency. C48 is about that file's type; what builds without allocator rely on is the same specification of `FnvIndexMap`.
* `create_max_buffer` (src/buffer.rs:127-134) asserts a block size of at most 1425: a library user who configures more gets a panic when the server or the call starts, and in release builds the values 65532 to 65535 wrap to a buffer of 516 bytes (`c90_library`). The command line excludes both.
* Without `alloc` a client with blocks above 1384 bytes cannot send its complaint about a bad answer to a sealed request: the packet is padded for the whole block and does not fit in the fixed buffer (`c91_handshake_packet`); with `alloc` it is sent but is longer than the server's buffer (C28).
* Without `alloc`, `read_authorized_keys` ignores that its list of 128 keys is full: further keys are dropped without a message (`c92_too_many`).
* Without `alloc` and `std`, a known host whose name with port is longer than 94 bytes is written to the known hosts file but never found again: its key is not pinned and the entry is appended with every session (`c92_forgotten`).
* Without `alloc`, `normalize_remote_name` ignores that the last `/` does not fit into the 150 bytes of a `FilePath` and then removes the last character of the name: a request for a name of exactly 150 bytes reads or overwrites the file of another name (`c93_cut`, `c93_wrong_file`).
* Without `alloc`, a file can be uploaded whose full path is longer than 150 bytes but not downloaded again: `create_server_reader` puts the canonical path into a `FilePath` (`c93_unreadable`).
* Without `std`, `Instant::elapsed` subtracts durations without a check and the binary passes the wall clock (`SystemTime`): setting the clock back while a transfer is running makes the server panic at its next turn (`c94_set_back`, `c94_purge`).
* C96: without `std`, `histogram!(..).record(started.elapsed())` at the end of a transfer and the `last_sent`, `stats_calculate` and rate control timers of uploads panic if the wall clock was set back; a complete download is lost this way (c96_complete_download_lost).
* C98: 0 stands for `no block is measured`, but is also a block number: a repeated acknowledgement of block 0 (of the request, or of block 65536) is taken for a round trip as long as the time since the last measurement began (c98_phantom); the retry interval is at least four times the average round trip.
* C98: a block with number 0 (65536, ...) which is repeated is measured from its last sending (c98_zero_restarts); all others from their first.

## Not modelled
* Logging, metrics, thread creation, command line parsing, name resolution.
* The f32 arithmetic of `RateControl`: its results are arbitrary inputs.
* The internals of the ciphers, signatures and key exchange.
* Socket options. Outside Poll.lean (C67) an event says which socket delivers a datagram; there the kernel's poller is part of the model (one shot, level triggered, in order of readiness). Which socket the kernel chooses with port reuse is modelled in Demux.lean (C86); elsewhere an event for a connection is a datagram which its socket delivers, whoever sent it.
* Memory ordering weaker than sequential consistency (`Relaxed` loads of the finished flag).
* Builds without `alloc`, except the pool (Pool.lean), the windowed reader (FixedReader.lean), the table and pools of the single threaded server (FixedServer.lean) and the packet decoder (FixedText.lean). heapless' `FnvIndexMap`, `String` and `Vec` are trusted to be finite maps, strings and lists up to their capacity.
* Texts of error packets outside ErrorText.lean (C78), except their lengths where they matter (C29).

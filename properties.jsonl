{"id": "C01", "title": "Packet wire round trip", "statement": "Encoding any well formed TFTP packet (read/write request, data, ack, error, option ack) and decoding the resulting datagram yields the same packet: same opcode, file name, option set with the same values, block number, payload, error code and message.", "quantifier": "all packets whose strings are NUL-free UTF-8 (and, for an option ack, with at least one option), all payloads, all 65536 block numbers", "why_tests_cant": "the payload, names and option combinations are unbounded; tests only sample a handful of literals", "anchors": ["src/packet.rs: Packet::from_bytes, Packet::to_bytes, RequestPacket, DataPacket, AckPacket, ErrorPacket, OptionalAck"]}
{"id": "C02", "title": "Encoding into a caller supplied buffer is all-or-nothing and agrees with the byte encoding", "statement": "Packet::to_buffer on a buffer either reports failure, exactly when the encoded packet is longer than the buffer, or returns the encoded length and leaves the buffer equal to the encoding followed by the untouched old tail.", "quantifier": "all packets and all buffers of every length and content", "why_tests_cant": "buffer length/packet length combinations are unbounded, an off by one only shows at one exact length", "anchors": ["src/packet.rs: PacketType, to_buffer, to_bytes", "src/buffer.rs: SliceMutExt::write_bytes"]}
{"id": "C03", "title": "Malformed datagrams are rejected and accepted ones have the TFTP shape", "statement": "Decoding never accepts a datagram with an opcode outside 1..6, a request whose mode is not octet, a data or ack packet shorter than 4 bytes, an error code above 7, or a string missing its NUL terminator or not UTF-8; every accepted datagram has the RFC 1350/2347 layout of the returned packet.", "quantifier": "all byte strings of every length", "why_tests_cant": "arbitrary attacker controlled datagrams; fuzzing samples but does not cover", "anchors": ["src/packet.rs: from_bytes, PacketType::from_repr"]}
{"id": "C04", "title": "Unknown options never affect the decoded request", "statement": "Inserting or removing option name/value pairs with unknown names anywhere in the option list of a request (or option ack) leaves the decoded packet unchanged, as long as fewer than eight distinct known options precede.", "quantifier": "all option lists, all positions, all unknown names and values", "why_tests_cant": "needs all names and positions", "anchors": ["src/packet.rs: OptionalAck::from_bytes"]}
{"id": "C05", "title": "Block numbers are mapped back to the true block index across wraparound", "statement": "A receiver or sender which sees 16 bit block numbers of a transfer in any order, each within 10000 blocks of the highest index seen so far, recovers the true unbounded block index for every one of them, for any number of 65536 wraparounds.", "quantifier": "all sequences of block indices with bounded displacement, unbounded length", "why_tests_cant": "transfers longer than 65535 blocks with arbitrary reorder patterns are not enumerable", "anchors": ["src/block_mapper.rs: BlockMapper::index, BlockMapper::block"]}
{"id": "C06", "title": "Single block reader emits the file in order, one outstanding block, and never loses data", "statement": "With window size 1 the sequence of distinct blocks handed to the network is exactly the file cut into block_size pieces numbered from 1 (last one short, possibly empty); a retransmission carries the same number and bytes; a new block is produced only after the previous was acknowledged; completion is reported only after the final block was acknowledged.", "quantifier": "all files, block sizes and all sequences of next/acknowledge calls", "why_tests_cant": "interleavings of retries, stale acks and file sizes are unbounded", "anchors": ["src/readers/single_block_reader.rs: SingleBlockReader"]}
{"id": "C07", "title": "Windowed in-memory reader emits exact file slices and respects the window", "statement": "Every block emitted by the multi block reader, first time or retransmitted, with absolute number i carries exactly bytes (i-1)*block_size .. i*block_size of the file; never more than window_size blocks are unacknowledged; retry restarts from the oldest unacknowledged block; completion is reported only once every block including the final short one was acknowledged.", "quantifier": "all files, block sizes, window sizes and sequences of next/retry/acknowledge calls (acks being cumulative acks of emitted blocks)", "why_tests_cant": "the state space (window content x ack order x file size) is unbounded", "anchors": ["src/readers/multiple_block_reader.rs: MultipleBlockReader"]}
{"id": "C08", "title": "Seeking reader emits exact file slices and respects the window", "statement": "Same guarantee as the in-memory windowed reader for the reader which re-reads from the file by seeking: block i always carries bytes (i-1)*block_size .. i*block_size, at most window_size unacknowledged blocks, completion only after the final block is acknowledged.", "quantifier": "all files, block sizes, window sizes and call sequences", "why_tests_cant": "as above; the seek offset bookkeeping has to be right after every history", "anchors": ["src/readers/multiple_block_seek_reader.rs: MultipleBlockSeekReader"]}
{"id": "C09", "title": "All readers are observably the same sliding window sender", "statement": "For the same file, block size, window size and the same sequence of calls the in-memory windowed reader and the seeking reader return the same blocks, the same acknowledged byte counts and the same completion flag, and with window size 1 so does the single block reader; which one the server picks is unobservable on the wire.", "quantifier": "all files, block sizes, window sizes, call sequences", "why_tests_cant": "equivalence over unbounded call histories", "anchors": ["src/readers/multiple_block_reader.rs", "src/readers/multiple_block_seek_reader.rs", "src/readers/single_block_reader.rs"]}
{"id": "C10", "title": "The writer stores blocks exactly once and in order", "statement": "After any sequence of received data blocks (duplicated, reordered, stale, from the future) the bytes passed to the file are exactly the concatenation of blocks 1..n for some n, each once and in order; a duplicate or out-of-order block leaves the file unchanged and is reported as already written / unexpected.", "quantifier": "all sequences of (block number, payload) pairs", "why_tests_cant": "arbitrary network reordering", "anchors": ["src/writers/single_block_writer.rs: SingleBlockWriter::write_block"]}
{"id": "C11", "title": "End to end: the received file is always a prefix of the sent file", "statement": "When a sender and a receiver run the transfer loops over a network which may lose, duplicate, delay and reorder datagrams (within the block number ambiguity bound), at every moment the file at the receiver is a block aligned prefix of the source file, or the whole file.", "quantifier": "all files, block sizes, window sizes, all schedules of sends, losses, duplications, reorderings and timeouts", "why_tests_cant": "needs every schedule of the network", "anchors": ["src/client/sender.rs", "src/client/receiver.rs", "src/server/helpers/read.rs", "src/server/helpers/write.rs", "src/readers", "src/writers"]}
{"id": "C12", "title": "End to end: success means the whole file was transferred", "statement": "If the receiver reports a finished transfer its file is byte for byte the source file; if the sender reports success then the receiver has finished with the identical file. Neither side reports success for a truncated or altered file.", "quantifier": "all files and all network schedules", "why_tests_cant": "needs every schedule of the network", "anchors": ["src/client/sender.rs: send_file", "src/client/receiver.rs: receive_file", "src/server/helpers/read.rs: handle_read", "src/server/helpers/write.rs: handle_write"]}
{"id": "C13", "title": "Reported transfer size equals the file size", "statement": "The byte counts returned by the client on success (sent or received) and tracked by the server equal the length of the transferred file.", "quantifier": "all files, option sets and schedules", "why_tests_cant": "accumulated over unbounded histories with retransmissions and duplicates", "anchors": ["src/client/sender.rs: send_file", "src/client/receiver.rs: receive_file", "src/server/helpers/read.rs", "src/server/helpers/write.rs"]}
{"id": "C14", "title": "Transfers make progress when the network does", "statement": "From every reachable state of a transfer, if the network delivers datagrams from then on and the retry timeout fires when nothing arrives, the number of blocks stored by the receiver strictly increases until the transfer is complete: no reachable state is a dead end.", "quantifier": "all reachable states of sender, receiver and network", "why_tests_cant": "a dead end is a property of every reachable state, not of sampled runs", "anchors": ["src/client/sender.rs", "src/client/receiver.rs", "src/readers", "src/writers"]}
{"id": "C15", "title": "Acknowledgement policy", "statement": "A receiver acknowledges the last block of each full window and the final block; an acknowledgement never names a block which has not been stored, and acknowledged block numbers never decrease.", "quantifier": "all sequences of received blocks and window sizes", "why_tests_cant": "depends on unbounded histories of duplicates and gaps", "anchors": ["src/client/receiver.rs: receive_file", "src/server/helpers/write.rs: handle_write"]}
{"id": "C16", "title": "Server never agrees to more than it was configured for", "statement": "Whatever options a client requests, the block size the server uses and confirms is between 512 and its maximum, the window size between 1 and its maximum, the timeout between 1 second and its request timeout, and only options the client asked for are confirmed.", "quantifier": "all request option sets, all server configurations", "why_tests_cant": "all combinations of textual option values", "anchors": ["src/server/extensions.rs: parse_extensions"]}
{"id": "C17", "title": "Client never accepts options it did not ask for", "statement": "A client accepts an option acknowledgement only if every confirmed option was requested and block size, window size and transfer size are within what it asked for; otherwise the transfer is aborted with an error and an error packet is sent.", "quantifier": "all client configurations and all option acknowledgements", "why_tests_cant": "server is untrusted; all answers must be considered", "anchors": ["src/client/extensions.rs: parse_extensions, validate_extensions", "src/client/connection.rs: query_server"]}
{"id": "C18", "title": "Client and server agree on the negotiated options", "statement": "For any client request and any server configuration, the option ack the server produces is accepted by the client, and afterwards both sides use the same block size, window size and encryption level.", "quantifier": "all client option sets x all server configurations", "why_tests_cant": "cartesian product of two configurations; composition of two separately written parsers", "anchors": ["src/server/extensions.rs: parse_extensions", "src/client/extensions.rs: create_extensions, parse_extensions"]}
{"id": "C19", "title": "Requested file names can not escape the server directory", "statement": "The path the server opens for a requested name never contains a '..', '.', or empty component and is never absolute, whatever name the client sends; names without any usable component are rejected; normalisation is idempotent.", "quantifier": "all strings", "why_tests_cant": "attacker controlled unbounded strings", "anchors": ["src/server/validation.rs: normalize_remote_name, validate_request_options"]}
{"id": "C20", "title": "Server side file opening stays inside the configured directory", "statement": "create_server_reader / create_server_writer return a handle only for a file whose resolved path is inside the resolved server directory, and only within the configured directory depth.", "quantifier": "all names, all directory trees including symbolic links, all configurations", "why_tests_cant": "all file systems and names", "anchors": ["std-binary/src/io.rs: create_server_reader, create_server_writer, validate_path"]}
{"id": "C21", "title": "Upload size limit", "statement": "A transfer which exceeds the configured maximum file size (or announces more through tsize) is refused, never reported as success, and the amount written to disk never exceeds the limit by more than one block.", "quantifier": "all payload sequences, announced sizes and limits", "why_tests_cant": "limit crossing depends on the accumulated history", "anchors": ["src/server/helpers/write.rs: handle_file_size", "src/server/validation.rs", "src/client/receiver.rs: handle_file_size"]}
{"id": "C22", "title": "Connection table bound and isolation", "statement": "The server never holds more than max_connections transfers, has at most one transfer per client address, and a datagram from one client address never changes another client's transfer.", "quantifier": "all sequences of datagrams from all addresses, timeouts and completions", "why_tests_cant": "unbounded histories of arrivals", "anchors": ["src/server/single_thread.rs: server loop", "src/server/multi_thread.rs", "src/server/helpers/connection.rs"]}
{"id": "C23", "title": "Authorized keys are enforced", "statement": "If the server is configured with an authorized key list, a transfer is created only for a request carrying a listed public key together with a signature valid under that key over the session key which is then used for encrypting the transfer.", "quantifier": "all requests, all key lists", "why_tests_cant": "must hold for all forged requests", "anchors": ["src/server/extensions.rs: parse_extensions", "src/server/connection_builder.rs"]}
{"id": "C24", "title": "Required full encryption is enforced by the server", "statement": "If the server requires full encryption, no transfer is created for a request which did not arrive encrypted to the server key with level full.", "quantifier": "all requests and configurations", "why_tests_cant": "all request variants", "anchors": ["src/server/extensions.rs: parse_extensions", "src/server/connection_builder.rs: from_new_connection"]}
{"id": "C25", "title": "Client encryption is never silently downgraded", "statement": "If the user asked for mandatory encryption (data, protocol or full), the transfer either is encrypted at at least that level or fails; only the optional levels may fall back to plaintext.", "quantifier": "all server answers and client configurations", "why_tests_cant": "all malicious server answers", "anchors": ["src/client/connection.rs: query_server", "src/client/extensions.rs: parse_extensions", "src/client/encryption_socket_builder.rs: configure_socket"]}
{"id": "C26", "title": "Length hiding padding round trip", "statement": "Padding any non-empty plaintext to a block and removing the padding returns the plaintext; padded data always has exactly the requested size plus one, so the length on the wire is independent of the content.", "quantifier": "all plaintexts and target sizes", "why_tests_cant": "all contents, in particular those ending with bytes looking like padding", "anchors": ["src/encryption.rs: apply_bit_padding, remove_bit_padding"]}
{"id": "C27", "title": "Packet encryption round trip and framing", "statement": "Encrypting a packet (initial, protocol or data level) and decrypting it with the matching key returns the packet; the datagram is the plaintext part, the ciphertext, the tag, the nonce and for the first packet the public key, in that layout.", "quantifier": "all packets, keys, nonces, block sizes, any AEAD satisfying decrypt(encrypt m)=m", "why_tests_cant": "all packet contents and sizes", "anchors": ["src/encryption.rs: Encryptor::encrypt, Encryptor::decrypt", "src/encrypted_packet.rs"]}
{"id": "C28", "title": "Datagrams never exceed the negotiated size", "statement": "Every datagram sent in a transfer (encrypted or not) is at most block size + 4 bytes for the negotiated block size, so that it fits the peer's buffers; the payload size used for encrypted transfers is reduced accordingly.", "quantifier": "all packets, all block sizes 512..1425, all encryption levels", "why_tests_cant": "size arithmetic over all packet kinds and levels", "anchors": ["src/config.rs: ConnectionOptions::block_size_with_encryption", "src/encrypted_packet.rs", "src/buffer.rs: create_max_buffer"]}
{"id": "C29", "title": "No datagram can crash the peer", "statement": "Processing an arbitrary datagram never panics: decoding and decrypting functions return an error for data they can not handle.", "quantifier": "all byte strings, all levels", "why_tests_cant": "attacker controlled input of any length", "anchors": ["src/encryption.rs: Encryptor::decrypt", "src/encrypted_packet.rs", "src/lib.rs: ensure_size"]}
{"id": "C30", "title": "Foreign datagrams do not influence a client transfer", "statement": "Datagrams from an address other than the server's never change the client's file, acknowledgements sent or result.", "quantifier": "all interleavings of foreign datagrams", "why_tests_cant": "all interleavings", "anchors": ["src/client/sender.rs", "src/client/receiver.rs", "src/client/encryption_socket.rs"]}
{"id": "C31", "title": "Client request retry and timeout", "statement": "The client repeats the initial request with exponentially growing pauses; each pause is at most the time left, and it gives up with a timeout error once the request timeout has elapsed without an answer.", "quantifier": "all arrival times and timeouts", "why_tests_cant": "all timings", "anchors": ["src/client/connection.rs: wait_for_initial_packet, query_server"]}
{"id": "C32", "title": "Transfers with servers ignoring options", "statement": "If the server ignores the requested options (plain TFTP), the transfer continues with 512 byte blocks and window 1 and delivers the complete file.", "quantifier": "all files, all requested option sets", "why_tests_cant": "all file lengths, in particular multiples of the block size", "anchors": ["src/client/connection.rs: query_server", "src/client/receiver.rs: receive_file"]}
{"id": "C33", "title": "Key text encoding round trip", "statement": "Encoding a 32 byte public key (or 64 byte signature) as text and decoding it returns the same key, and text which does not encode exactly a key is rejected.", "quantifier": "all keys, all texts", "why_tests_cant": "2^256 keys", "anchors": ["src/encryption.rs: encode_public_key, decode_public_key, decode_verifying_key, decode_signature, decode"]}
{"id": "C34", "title": "Known hosts lookup returns what was stored", "statement": "After a server key was appended to the known hosts file for an endpoint not yet listed, looking up that endpoint returns that key, lookups for other endpoints are unchanged, and an earlier entry always wins.", "quantifier": "all known hosts files, endpoints and keys", "why_tests_cant": "all file contents", "anchors": ["src/key_management.rs: get_from_known_hosts, append_to_known_hosts"]}
{"id": "C35", "title": "Authorized keys file parsing", "statement": "Reading an authorized keys file returns exactly the keys on the non-blank, non-comment lines in order, and fails as a whole if any such line is not a key: no line is silently skipped.", "quantifier": "all files", "why_tests_cant": "all file contents", "anchors": ["src/key_management.rs: read_authorized_keys"]}
{"id": "C36", "title": "File stream encryption round trip", "statement": "A file read through the encrypting stream reader block by block and written block by block through the decrypting stream writer with the same key is restored byte for byte; after the last block no further data is accepted.", "quantifier": "all files, all block sizes in the supported range, any STREAM cipher with the usual correctness law", "why_tests_cant": "all file lengths vs block sizes including exact multiples", "anchors": ["src/readers/encrypted_stream_reader.rs: StreamReader", "src/writers/encrypted_stream_writer.rs: StreamWriter", "src/encryption.rs: StreamEncryptor, StreamDecryptor"]}
{"id": "C37", "title": "Reading a file which is still being written loses no data", "statement": "The blocking reader returns only full blocks until the file is marked finished, never loses or duplicates bytes when it reports WouldBlock, and after the file is finished delivers all remaining bytes.", "quantifier": "all interleavings of writer appends, finish flag and read calls", "why_tests_cant": "all interleavings of two threads", "anchors": ["std-binary/src/blocking_reader.rs: BlockingReader"]}
{"id": "C38", "title": "Idle clients are removed, active ones are kept", "statement": "The server drops a connection exactly when it is finished, failed, or no progress was made for longer than the request timeout.", "quantifier": "all event histories and clock values", "why_tests_cant": "all timings", "anchors": ["src/server/helpers/connection.rs: timeout_client", "src/server/helpers/read.rs", "src/server/helpers/write.rs"]}
{"id": "C39", "title": "Retry back-off is bounded", "statement": "The server's retransmission multiplier grows on each retransmission without overflow and shrinks on progress but never below one, so retransmission never stops and never becomes faster than the negotiated timeout.", "quantifier": "all sequences of retries and acknowledgements", "why_tests_cant": "unbounded histories incl. saturation", "anchors": ["src/server/helpers/read.rs: send_data_block, handle_read"]}
{"id": "C40", "title": "Round robin service of clients", "statement": "In every round of the single threaded server each active client with data to send gets its turn before any client gets a second one.", "quantifier": "all client sets and rounds", "why_tests_cant": "all numbers of clients and histories", "anchors": ["src/server/single_thread.rs: send_data_blocks"]}
{"id": "C41", "title": "Errors are only shown to authorized peers when configured", "statement": "With error_to_authorized_only set, a client whose request was refused because of missing or wrong credentials or because the file can't be opened receives no reply.", "quantifier": "all requests", "why_tests_cant": "all requests", "anchors": ["src/server/connection_builder.rs: reply_with_error", "src/server/validation.rs"]}
{"id": "C42", "title": "Repeated options: the last occurrence wins", "statement": "The option set of a decoded request is a finite map: if a known option occurs several times the value of its last occurrence is the one used, and occurrences of one option never change the value of another one.", "quantifier": "all option lists with at most 8 distinct known options", "why_tests_cant": "holds for option lists of every length and order", "anchors": ["src/packet.rs: PacketExtensions, from_bytes, to_bytes"]}
{"id": "C43", "title": "Reader pool hands out each slot to one owner", "statement": "The stack buffer pool never gives the same slot to two live readers, fails only when all slots are taken, and a dropped reader's slot can be reused.", "quantifier": "all sequences of creation and drop", "why_tests_cant": "all histories", "anchors": ["src/readers/pool_reader.rs"]}
{"id": "C44", "title": "Encryption level text round trip", "statement": "Every encryption level printed as an option value is parsed back to the same level and no other text is accepted.", "quantifier": "all levels and all strings", "why_tests_cant": "all strings", "anchors": ["src/encryption.rs: EncryptionLevel"]}
{"id": "C45", "title": "Rates, retry interval and idle wait are bounded", "statement": "The initial sending rate is between two and four blocks (at least min(4380, 4 blocks)) and never overflows for the supported block sizes; the allowed rate stays positive, at most doubles per calculation without losses and, from the third calculation on, is at most twice the best of the last three rates at which the server received (or the initial one); the retry interval is the least time not below the configured one, four round trips and two blocks at the allowed rate; without acknowledgements and losses the rate falls back to the initial one; and the idle wait of the server loop is exactly the number of fruitless calls since the last activity modulo 256 ms (0 right after activity, 500 ms without clients).", "quantifier": "all block sizes and histories", "why_tests_cant": "all values", "anchors": ["src/flow_control.rs: initial_rate", "src/server/wait_control.rs: WaitControl"]}
{"id": "C46", "title": "A private key given as a file name is read from that file", "statement": "If the private key argument names a file, the key in the first line of the file is used, whatever the file is called.", "quantifier": "all file names and file contents", "why_tests_cant": "file names are unbounded text; a test covers a few names", "anchors": ["std-binary/src/encryption_io.rs: read_private_value_or_file", "src/encryption.rs: decode_signing_key"]}
{"id": "C47", "title": "Receiving from clients is fair and can not block new clients", "statement": "The single threaded server looks at its main socket at least once in every max_connections+1 iterations of its loop; between two such polls it reads at most one datagram from each client, and, while no client is dropped, at least one datagram from every client which has one waiting.", "quantifier": "all histories of loop iterations, all sets of waiting datagrams, all table sizes", "why_tests_cant": "starvation depends on the interleaving of arrivals, removals and the receive pointer over arbitrarily long runs", "anchors": ["src/server/single_thread.rs: server (next_client_to_receive)"]}
{"id": "C48", "title": "The fixed capacity map is a finite map with a size limit", "statement": "The repository's fixed capacity map (src/map.rs) behaves as a finite map with at most CAP keys: looking up a key gives the value last stored for it; inserting a new key fails exactly when CAP keys are present and then changes nothing; inserting a present key never fails and returns the old value; removing and retaining affect exactly the keys concerned. (Builds without allocator use heapless' FnvIndexMap under the same name, src/lib.rs:75-79, and rely on the same.)", "quantifier": "all capacities, keys, values and histories of operations", "why_tests_cant": "all histories, including full maps and re-insertions", "anchors": ["src/map.rs: Map, Entry, OccupiedEntry, VacantEntry"]}
{"id": "C49", "title": "A short block ends a file which is still being written", "statement": "When the blocking reader returns a block shorter than the buffer (which ends the transfer), the blocks delivered are the complete file.", "quantifier": "all interleavings of writer appends, finish flag and read calls", "why_tests_cant": "needs a particular interleaving inside one read call", "anchors": ["std-binary/src/blocking_reader.rs: BlockingReader", "std-binary/src/sync.rs"]}
{"id": "C50", "title": "Every client sees its own server", "statement": "Whatever other clients there are and whatever they send, and however threads interleave, what a client address gets (its connection's state and the datagrams sent to it, in order) is what a server of its own would give it for the same datagrams, turns and time-outs. Holds for the single threaded and the multi threaded server.", "quantifier": "all histories of the server, all numbers of clients, all interleavings of threads, all addresses", "why_tests_cant": "Non-interference between clients ranges over all combinations of other clients' behaviour and all thread schedules.", "anchors": ["src/server/single_thread.rs:server", "src/server/multi_thread.rs:server", "src/server/multi_thread.rs:spawn_reader", "src/server/multi_thread.rs:spawn_writer"]}
{"id": "C51", "title": "Finished threads free their slot", "statement": "In the multi threaded server a thread which is over does not occupy one of the max_connections slots: a request from an address without a running thread is handled as in an empty server as soon as fewer than max_connections threads run; while the slots are taken, or the address has a thread, a request has no effect and no answer.", "quantifier": "all reachable states of the multi threaded server, all requests", "why_tests_cant": "Depends on the order in which threads end, are noticed and new requests arrive.", "anchors": ["src/server/multi_thread.rs:server"]}
{"id": "C52", "title": "Whole upload: success means that the server stored the file", "statement": "An upload from the first request (with any options, levels of encryption and known or unknown server key) to the client's result: every connection the server makes for the requests of this client stores an initial part of the client's file, a connection which counts as complete has stored the whole file and counts its length, and when the client returns success it returns the file's length and a connection has stored the whole file.", "quantifier": "all client and server configurations, files, names, and all schedules of a network which loses, repeats, delays and reorders datagrams in both directions (including the requests), with arbitrary failures of sockets and files", "why_tests_cant": "The handshake, the key exchange, the transfer and the timeouts of two programs are interleaved with an arbitrary network; the number of schedules is unbounded.", "anchors": ["src/client/connection.rs:query_server", "src/client/sender.rs:send_file", "src/server/connection_builder.rs", "src/server/helpers/write.rs:handle_write", "src/server/helpers/connection.rs"]}
{"id": "C53", "title": "Whole download: success means that the client has the server's file", "statement": "A download from the first request to the client's result: what the client has stored is at any time an initial part of a file the server opened for the requested name; when the client returns success it has stored the whole file and returns its length; when the server counts a connection as complete, the client has returned success and stored the whole file of that connection.", "quantifier": "as C52; the server's answer to the request is an option acknowledgement which is not overtaken by data (otherwise see the findings of C32 and C54)", "why_tests_cant": "as C52", "anchors": ["src/client/connection.rs:query_server", "src/client/receiver.rs:receive_file", "src/server/connection_builder.rs", "src/server/helpers/read.rs", "src/server/helpers/connection.rs"]}
{"id": "C54", "title": "Losing or overtaking the acceptance does not cut a download", "statement": "If the server's option acknowledgement is lost, or overtaken by the first data block, a download still ends with the whole file or with an error; the server repeats the acceptance when the request is repeated.", "quantifier": "every request, every loss, duplication and reordering of the server's first datagrams, every later event of the connection", "why_tests_cant": "needs one particular datagram of the handshake to be lost or overtaken; tests run over loopback", "anchors": ["src/client/connection.rs: query_server", "src/client/receiver.rs", "src/server/connection_builder.rs", "src/server/single_thread.rs", "src/server/helpers/connection.rs"]}
{"id": "C55", "title": "A file reported as stored stays stored", "statement": "After an upload has succeeded, duplicates of its own datagrams which the network delivers late do not change the stored file.", "quantifier": "every upload, every delayed duplicate of the client's datagrams, every moment after the end of the connection", "why_tests_cant": "needs a datagram which is delivered twice, the second time after the connection has ended", "anchors": ["src/server/connection_builder.rs: from_new_connection", "src/server/single_thread.rs", "std-binary/src/io.rs: create_server_writer"]}
{"id": "C56", "title": "Encrypted files come back whole and genuine", "statement": "With an encryption key, what the server stores is exactly the encrypted form of the local file; a download with that key writes only leading whole pieces of a file somebody encrypted with the key, whatever the server does; and with an honest server a successful download restores the original file, for every agreed block size.", "quantifier": "every file, key, nonce, block size, window, every network, every behaviour of the server (for authenticity)", "why_tests_cant": "ranges over all files, all ways datagrams cut the encrypted stream into blocks, and all dishonest servers", "anchors": ["src/encryption.rs", "src/client/sender.rs", "src/client/receiver.rs", "std-binary/src/encryption_io.rs", "src/readers", "src/writers"]}
{"id": "C57", "title": "A server without the key cannot cut an encrypted file", "statement": "If a download with an encryption key reports success, the local file is the whole file which was encrypted.", "quantifier": "every encrypted file, every server which does not know the key, every network", "why_tests_cant": "ranges over every dishonest server", "anchors": ["src/encryption.rs", "src/client/receiver.rs"]}
{"id": "C58", "title": "A directory listing shows exactly the files and every line can be requested", "statement": "The listing of a directory has one line per entry, with its path relative to the server directory and a slash exactly for directories; different entries have different lines; requesting a line gives that file, and the line of a directory followed by the listing name gives its listing.", "quantifier": "every directory tree, every directory inside the server directory, every order of entries", "why_tests_cant": "ranges over all trees and names", "anchors": ["std-binary/src/io.rs: list_directory, create_server_reader", "src/server/validation.rs: normalize_remote_name"]}
{"id": "C59", "title": "What was stored under a name is found under this name", "statement": "After the server has opened a file for an upload, a read request with the same name is served from the same file, whatever else is uploaded before or afterwards; without allow_overwrite it finds exactly the bytes that upload wrote.", "quantifier": "every directory tree with links, every configuration, every name which is not one of a listing, every history of uploads and writes", "why_tests_cant": "ranges over all histories and trees, including symbolic links on the way", "anchors": ["std-binary/src/io.rs: create_server_reader, create_server_writer"]}
{"id": "C60", "title": "A server key, once recorded, is the one used in all later runs", "statement": "Trust on first use: the key which the known hosts file has for an endpoint - in particular the key the server presented in the first successful run - is the key the client demands in every later run for that endpoint, whatever servers were visited in between and whatever keys they presented; such a run with a mandatory encryption level never sends file data in the clear.", "quantifier": "every existing known hosts file, every sequence of runs of the client against any servers with any keys and outcomes, every endpoint name without space, line break or leading comment sign", "why_tests_cant": "ranges over all histories of runs, files and endpoint names", "anchors": ["std-binary/src/config.rs: try_into", "std-binary/src/encryption_io.rs: handle_hosts_file", "src/key_management.rs: append_to_known_hosts, get_from_known_hosts"]}
{"id": "C61", "title": "Recording a server key survives crashes and concurrent clients", "statement": "If the client is stopped while it appends an entry to the known hosts file, or two clients append at the same time, every lookup afterwards gives the entries as before, and the new host is absent or has the key its server presented.", "quantifier": "every known hosts file, every host and key, every number of bytes written, every interleaving of any number of appends", "why_tests_cant": "ranges over all crash points and interleavings", "anchors": ["src/key_management.rs: append_to_known_hosts, get_from_known_hosts"]}
{"id": "C62", "title": "Synchronisation sends each file of the directory, under its relative path, and ends it when it is complete", "statement": "In the default mode each closing of a written file below the directory sends that file exactly once, and nothing else is sent; with --start-on-create each creation starts one transfer, which is told that the file is complete exactly when the file's next event is its closing. The remote name is the path relative to the directory, so the server stores the file at the same place below its own directory, different files under different names.", "quantifier": "every sequence of file system events, every directory and path, both modes, every server tree in which the upload is possible", "why_tests_cant": "ranges over all histories of file system events", "anchors": ["std-binary/src/sync.rs: start_sync, get_paths"]}
{"id": "C63", "title": "A download changes only its own local file", "statement": "Whatever the server and the network do, a download changes no file but the one its local path denotes; as long as the server has not accepted the request nothing is changed; after a success the file holds exactly the result. Without --local-path it is a plain name in the working directory.", "quantifier": "every file system with links, every local and remote name, every run of the client against any server and network", "why_tests_cant": "ranges over all server behaviours, runs and file systems", "anchors": ["std-binary/src/receiver.rs: start_receive", "std-binary/src/io.rs: create_writer", "src/client/receiver.rs: receive_file"]}
{"id": "C64", "title": "Uploads which are possible are accepted and stored where their name says", "statement": "If the depth of the name is allowed, only directories or nothing are on the way, and the file is new (or an ordinary file and overwriting is allowed), the server opens the file at the named place below its directory, creating missing directories; without symbolic links in the directory an upload is refused only if one of these fails.", "quantifier": "every directory tree with links outside the way, every configuration, every name", "why_tests_cant": "ranges over all trees and names", "anchors": ["std-binary/src/io.rs: create_server_writer, validate_path"]}
{"id": "C65", "title": "The server keeps the limits and the security given on its command line", "statement": "A server started from the command line holds at most max-connections transfers and agrees to no block size, window or timeout beyond the numbers given. With --authorized-keys every transfer goes back to a request signed with a key of that file; unless told otherwise, the request was encrypted and nobody else gets any answer. --require-full-encryption alone: only encrypted requests are served. It starts exactly if numbers are in range and the key files hold keys.", "quantifier": "every command line, every contents of the files it names, every history of datagrams and clocks", "why_tests_cant": "ranges over all option combinations and server histories", "anchors": ["std-binary/src/config.rs: ServerCliConfig::try_into", "std-binary/src/cli.rs: ServerCliConfig", "std-binary/src/encryption_io.rs: read_private_value_or_file"]}
{"id": "C66", "title": "The client does what its command line says", "statement": "A client started from the command line uses exactly the block size, window, timeouts, size limit and encryption level given; a level that is unknown, a key that is none, an unreadable known hosts file stop it before anything is sent. With --server-public-key (or a key in the known hosts file) and one of the levels data, protocol, full, file data never leaves in the clear. All numbers that the command lines of client and server accept are in the ranges in which whole transfers are correct.", "quantifier": "every command line, every file contents and resolver, every run against any server and network", "why_tests_cant": "ranges over all option combinations, servers and runs", "anchors": ["std-binary/src/config.rs: ClientCliConfig::try_into", "std-binary/src/cli.rs: ClientCliConfig", "std-binary/src/sender.rs: start_send", "std-binary/src/receiver.rs: start_receive", "std-binary/src/socket.rs: obtain_listen_socket_based_on_endpoint"]}
{"id": "C67", "title": "No datagram waiting at the server is overlooked", "statement": "The single threaded server with its poller and numbered sockets takes every datagram that waits at the socket of a client in its table, and every request at its main socket, within a number of loop iterations that depends only on the number of clients (and of rounds in which clients are dropped), whatever other peers send and however the kernel orders its reports; what it takes from a client's socket is exactly what arrived there, once each and in order, and is handed to that client's transfer.", "quantifier": "every history of arrivals, reports of the poller, clients joining and leaving; every client and datagram", "why_tests_cant": "a lost wake-up shows only in particular interleavings of arrivals and re-armings", "anchors": ["std-binary/src/socket.rs: UdpUnboundSocket::recv_from, notified, add_interest, modify_interest", "src/server/single_thread.rs: server"]}
{"id": "C68", "title": "A client gives up exactly when its transfer stands still", "statement": "Once its request has been accepted, a client ends its transfer with a timeout error only in an iteration in which nothing arrives and when no progress (an acknowledgement from the server for an upload, a newly stored block for a download) lies within the request timeout; and when no progress lies within it, the first iteration in which nothing arrives ends the transfer.", "quantifier": "every sequence of datagrams, pauses and errors from any peers, every transfer and every timeout", "why_tests_cant": "the clock depends on the whole history of arrivals; tests try a few schedules", "anchors": ["src/client/sender.rs: send_file", "src/client/receiver.rs: receive_file"]}
{"id": "C69", "title": "What the server sends to a silent client is bounded", "statement": "Whatever happened before, in a span of time not longer than the retry interval in which nothing arrives from a client, the server sends it at most one window of blocks and one error message, however often its turn comes and whatever other clients do. A client which sends a request and then nothing (for instance a forged address) gets at most one answer, G+1 windows and one error message until time t, where retry*(1+3+5+...), G terms capped at 255, is at most the time passed; after the first timeout check later than the request timeout it gets nothing more.", "quantifier": "every history, every schedule of turns and checks, every file, window, retry interval, and silent span", "why_tests_cant": "the amount depends on the interleaving of turns, timers and window state over arbitrarily long times", "anchors": ["src/server/helpers/read.rs: send_data_block", "src/server/helpers/connection.rs: timeout_client", "src/server/single_thread.rs: server"]}
{"id": "C70", "title": "The request says what the user asked for", "statement": "Whenever a client waits for an answer and can send, it sends to the configured endpoint exactly a read request (download) or write request (upload) for the given remote name, with exactly the configured block size, window, retry interval (whole seconds), encryption level and keys, each only if it differs from the TFTP default, and for an upload the size of the file if it is not empty; only after the server's host has answered with an error that refuses options, and only without encryption, the same request is sent without options. An unencrypted request decodes to just that.", "quantifier": "every job, configuration, and history of answers, errors and pauses before the answer", "why_tests_cant": "all combinations of options and all histories of refusals", "anchors": ["src/client/connection.rs: query_server, wait_for_initial_packet", "src/client/extensions.rs: create_extensions", "src/client/sender.rs: send_file", "src/client/receiver.rs: receive_file"]}
{"id": "C71", "title": "Encrypting while uploading changes the content only", "statement": "A client which encrypts a file while it uploads it sends, whatever the network, the server and the local file do, datagram for datagram what a client would send which uploads the already encrypted file (header with the agreed block size and the nonce, then the sealed pieces) without announcing its size, and returns the same result. With --prefer-seek this holds up to the first block which would have to be repeated: then the upload ends with an I/O error, because the encrypting reader cannot seek.", "quantifier": "every configuration, file below 64 GB, nonce, key, block size up to 1425, window, and sequence of network and file events", "why_tests_cant": "all sequences of losses, duplicates, refusals, read errors and acknowledgements; the content depends on the block size which the server chooses during the run", "anchors": ["src/readers/encrypted_stream_reader.rs: StreamReader", "std-binary/src/encryption_io.rs: create_encryption_reader", "std-binary/src/sender.rs: start_send", "src/client/sender.rs: send_file", "src/readers/single_block_reader.rs: SingleBlockReader", "src/readers/multiple_block_reader.rs: MultipleBlockReader", "src/readers/multiple_block_seek_reader.rs: MultipleBlockSeekReader"]}
{"id": "C72", "title": "A file can be uploaded while it is being written", "statement": "A client which uploads a file while another thread is still writing it (sync --start-on-create) sends exactly the datagrams which a client sends which uploads the finished file, if some reads of that file had to wait, and has the same result (success with the size of the finished file, or the same error). A read waits only while the file has not been closed and there is no complete block. Exceptions, with witnesses: if the last bytes are written and the file is closed between a read and the check whether the file is closed, the client reports success although the bytes were not sent; a writer which pauses longer than the request timeout makes the upload fail.", "quantifier": "all contents, all ways of cutting them into writes, all interleavings of the writing thread with the reads of the client (except for the race of C49), all behaviours of network and clock, all negotiated options", "why_tests_cant": "A test has one interleaving of writer and reader; the claim is about all of them, together with all losses, repetitions and window positions.", "anchors": ["std-binary/src/blocking_reader.rs:BlockingReader", "std-binary/src/sync.rs:start_sync", "src/client/sender.rs:send_file", "src/readers/single_block_reader.rs", "src/readers/multiple_block_reader.rs"]}
{"id": "C73", "title": "A file can be encrypted and uploaded while it is being written", "statement": "With an encryption key, the client of C72 sends exactly the datagrams which a client sends which uploads the encryption of the finished file, cut for the negotiated block size, if some reads had to wait, and has the same result: no waiting read disturbs the sequence of encrypted pieces.", "quantifier": "all contents of less than 64 GB, all interleavings of the writing thread (except for the race of C49), all behaviours of network and clock, all negotiated options with a block size of at most 1425", "why_tests_cant": "The state of the encryptor, the half filled buffer of the blocking reader and the window of the block reader interact; a test has one schedule.", "anchors": ["src/readers/encrypted_stream_reader.rs:StreamReader", "std-binary/src/blocking_reader.rs:BlockingReader", "std-binary/src/encryption_io.rs:create_encryption_reader", "std-binary/src/sync.rs:start_sync"]}
{"id": "C74", "title": "No state of a running transfer is a dead end", "statement": "Whatever has happened so far (datagrams lost, repeated, reordered or delayed; blocks stored at one side and not confirmed at the other; foreign datagrams): as long as the client is transferring, the server's connection with it is alive and neither side has failed, the transfer can still be completed, from the present moment on, by working files, sockets and network alone: the client then reports success with the size of the file, the receiving side has stored exactly the file, and the server regards the transfer as successful. In particular the two windows, the two block counters and the 16 bit block numbers can not get into positions from which retransmissions do not help.", "quantifier": "all configurations of both sides, all files and names, all encryption levels, all reachable states of client, server and network (with the limits of C52 and C53: datagrams are not older than the window allows, or the file is small)", "why_tests_cant": "A deadlock needs a particular history of losses; tests visit a few histories. The claim is about every reachable combination of the states of both sides and the network.", "anchors": ["src/client/sender.rs:send_file", "src/client/receiver.rs:receive_file", "src/server/helpers/read.rs:send_data_block", "src/server/helpers/read.rs:handle_read", "src/server/helpers/write.rs:handle_write", "src/readers/", "src/writers/", "src/block_mapper.rs:BlockMapper"]}
{"id": "C75", "title": "A client and a server which come to an agreement can carry out the whole transfer", "statement": "If the server accepts the first request of a client, on its main port, or on a new one if the client allows the change of the port, and the sizes are within the limits of the receiving side, then the whole transfer, from that request to the end, can be carried out by working files, sockets and network: the client understands the acceptance, both sides use the same block size, window and keys, and the transfer ends with success on both sides and the exact file at the receiver. Nothing the negotiation can agree on (block size, window, retransmission interval, announced size, level of encryption, signatures) is a dead end.", "quantifier": "all client and server configurations, options, names, files, levels of encryption, known and unknown keys, both settings of the server's port change, and all the answers of the server's file system for which the request is accepted", "why_tests_cant": "The combinations of configurations, options and levels are unbounded; a test runs a few of them. A mismatch shows only in particular combinations.", "anchors": ["src/client/connection.rs:query_server", "src/client/connection.rs: query_server", "src/server/connection_builder.rs: from_new_connection", "src/server/extensions.rs: parse_extensions", "src/client/sender.rs:send_file", "src/client/receiver.rs:receive_file"]}
{"id": "C76", "title": "Both ends of a session compute the same keys", "statement": "Whenever a server accepts an encrypted transfer and the client accepts the server's answer, the client and the server encrypt with the same key: each opens what the other seals. The same holds of the handshake with a server whose key the client knows: the server opens the client's request with the key it computes from the datagram. (The two facts are what the end-to-end properties C52, C53, C74 and C75 assume of the key exchange.)", "quantifier": "all private keys, all keys drawn by the two sides, all client and server configurations, options, levels of encryption and requests which the server accepts", "why_tests_cant": "A test tries a few random keys and configurations; key handling errors (a key finalized with the wrong counterpart, a cipher of the handshake kept for the session, a key in the wrong form) concern particular combinations of level, known key and signature.", "anchors": ["src/encryption.rs:create_encryptor_with_auth_keys", "src/encryption.rs:create_session_keys", "src/encryption.rs:create_initial_keys", "src/encryption.rs:finalize", "src/client/encryption_socket_builder.rs:create_initial_socket", "src/client/encryption_socket_builder.rs:configure_socket", "src/server/connection_builder.rs:from_new_connection", "src/server/extensions.rs:parse_extensions", "src/server/helpers/connection.rs:accept_connection"]}
{"id": "C77", "title": "Files are reached through signed sessions only", "statement": "If the server has a list of authorized keys, only the holder of a listed key can change or read a file. An address without a request signed under a listed key gets refusals only, and the file system is not asked on its behalf. What an upload has stored came in datagrams from the same address, received since the signed request and sealed with the cipher of the session key signed in it; with the levels protocol and full block by block, in order, under sealed block numbers. File data is sent in datagrams sealed with such a cipher only. Nobody who merely sees and repeats datagrams can cause a file to be created or emptied, or blocks to be stored in another order.", "quantifier": "all histories of both servers: all clients, datagrams (also forged, repeated, spoofed ones), requests, time-outs, file and socket failures, all ciphers and signature schemes", "why_tests_cant": "What an attacker sends is arbitrary; tests send the datagrams of a genuine client.", "anchors": ["src/server/extensions.rs:parse_extensions", "src/server/connection.rs:decrypt_packet", "src/server/connection.rs:send_bytes", "src/server/helpers/write.rs:handle_write", "src/server/helpers/read.rs:send_data_block", "src/server/connection_builder.rs:build_writer", "src/encryption.rs:decrypt"]}
{"id": "C78", "title": "What the server says when it refuses a request", "statement": "A refused request gets at most one answer, an error packet whose text states the reason: options (code 4, one of nine sentences, each sent only if it is true of the request and the configuration), size (code 3, with the size asked for), name (code 2) or file (code 3), the last two with at most the first hundred bytes of the requested name. Whatever the request, the text is valid UTF-8 of at most 140 bytes and fits into the datagram, so the client which made the request decodes exactly it; answers to sealed requests are sealed with the cipher of the request. No other datagram from a new address is answered with an error, the answer does not depend on why a file could not be opened, and with error_to_authorized_only nothing is answered.", "quantifier": "all requests (all bytes, names, options), configurations, ciphers, signature schemes, file systems", "why_tests_cant": "The answer quotes what the client sent, cut to fit: whether it is well-formed depends on every byte of the request; tests try a few requests and do not look at the texts.", "anchors": ["src/server/connection_builder.rs:reply_with_error", "src/server/connection_builder.rs:build_reader", "src/server/connection_builder.rs:build_writer", "src/server/validation.rs:validate_request_options", "src/server/validation.rs:handle_file_size", "src/server/validation.rs:validate_file_name", "src/error.rs:ExtensionError", "src/lib.rs:ensure_size", "src/client/connection.rs:query_server"]}
{"id": "C79", "title": "The single threaded server sleeps only while there is nothing to read", "statement": "When the single threaded server waits at its sockets, a datagram which waits already or arrives meanwhile is reported by the poller, so the wait ends at once: a new request never has to wait for the pause to end, nor does an acknowledgement or a block of a client which is being served. This holds after every history: clients which come and go, sockets which were read once and armed again, any number of datagrams before.", "quantifier": "all histories of arrivals, errors, polls and client sets; all configurations; fewer than 2^32 - 1 accepted clients", "why_tests_cant": "Sockets are reported once and must be armed again; a lost re-arming shows only as a delay after particular sequences of events, tests do not measure it.", "anchors": ["std-binary/src/socket.rs:recv_from", "std-binary/src/socket.rs:modify_interest", "std-binary/src/socket.rs:add_interest", "src/server/single_thread.rs:server"]}
{"id": "C80", "title": "Any RFC client can download", "statement": "A client which knows nothing but RFC 1350, and the block size and window options if the server has confirmed them, downloads from this server over a network which loses, duplicates, delays and reorders: what it has taken is always a beginning of the file, a short block which it takes as the last one completes exactly the file, and the server considers the transfer finished only if the client has everything. As long as the server has not given up, the transfer can still be completed on both sides, even if everything under way is lost.", "quantifier": "all unencrypted read requests the server accepts, all files, all clients which acknowledge what they have at any moments of their choice and may give up, all schedules, losses, duplicates, delays and server pauses; files of at most 55535 blocks, or a network which delays by less than 10000 blocks minus a window", "why_tests_cant": "The repository tests this server against this client only, which shares its code; the pairing with other implementations and with bad networks is unbounded.", "anchors": ["src/server/helpers/read.rs: handle_read, send_data_block", "src/server/helpers/connection.rs: timeout_client", "src/readers/single_block_reader.rs: SingleBlockReader", "src/readers/multiple_block_reader.rs: MultipleBlockReader", "src/readers/multiple_block_seek_reader.rs: MultipleBlockSeekReader"]}
{"id": "C81", "title": "Any RFC client can upload", "statement": "A client which knows nothing but RFC 1350, and the block size and window options if the server has confirmed them, uploads to this server over a network which loses, duplicates, delays and reorders: the server's file is always a beginning of the client's file which contains at least the blocks it has confirmed; when the client has got its last block confirmed, or the server considers the transfer finished, the server's file is exactly the client's. As long as the server has neither failed nor finished, the transfer can still be completed on both sides, even if everything under way is lost, if the file is within the server's limit.", "quantifier": "all unencrypted write requests the server accepts, all files, all clients which send the blocks of their window in any order, at any moments and as often as they like, all schedules, losses, duplicates and delays; file writes which succeed or fail; files of at most 55535 blocks, or a network which delays by less than 10000 blocks minus a window", "why_tests_cant": "The repository tests this server against this client only, which shares its code; the pairing with other implementations and with bad networks is unbounded.", "anchors": ["src/server/helpers/write.rs: handle_write", "src/server/helpers/connection.rs: timeout_client", "src/writers/single_block_writer.rs: SingleBlockWriter::write_block", "src/block_mapper.rs: BlockMapper"]}
{"id": "C82", "title": "Lossless transfers never wait", "statement": "On a network which loses nothing, an unencrypted transfer with a peer written from the RFCs runs from window to window without any time passing: in an upload the server answers every full window, and the last block, with exactly one acknowledgement, and after the last one the file is stored and the peer knows it; in a download the server sends every block exactly once, each window as soon as the previous one is acknowledged, and after the last acknowledgement the peer has the file and the server is finished. Nothing is sent twice.", "quantifier": "all unencrypted requests the server accepts, all files with any number of blocks (uploads: within the size limit), all block sizes and all windows (downloads: windows of at most 10000 blocks), all reader kinds", "why_tests_cant": "An off-by-one in the window of either side only costs time on a good network (a retransmission timeout for every window), so a test which compares files passes; sizes, windows and numbers of blocks are unbounded.", "anchors": ["src/server/helpers/read.rs: handle_read, send_data_block", "src/server/helpers/write.rs: handle_write", "src/readers/multiple_block_reader.rs: MultipleBlockReader", "src/readers/multiple_block_seek_reader.rs: MultipleBlockSeekReader", "src/writers/single_block_writer.rs: SingleBlockWriter::write_block"]}
{"id": "C83", "title": "Uploads to other servers", "statement": "This client, uploading without encryption to any server which follows RFC 1350, 2347, 2348 and 7440 and answers the request with an acknowledgement of block 0 or an OACK of its choice: whatever the network loses, duplicates, delays or reorders, the server has at all times a prefix of the file in whole blocks of the size it has confirmed, when it considers the transfer complete it has exactly the file, and the client reports success only then and with the size of the file. As long as the client has not given up, the transfer can still be completed on both sides, even if everything under way is lost, if the OACK confirms only options which were asked for with values not larger than asked for (and a block size of at least 512).", "quantifier": "all files, all options of the client without encryption, all answers of at most 512 bytes, all windows, all schedules and networks (files of at most 55535 blocks, or a limit on the age of datagrams)", "why_tests_cant": "The repository's tests use its own server; other implementations answer with other options (none, some, smaller values), and losses and reorderings have no bound.", "anchors": ["src/client/sender.rs: send_file", "src/client/connection.rs: query_server, wait_for_initial_packet", "src/client/extensions.rs: parse_extensions", "src/readers/multiple_block_reader.rs: MultipleBlockReader", "src/readers/multiple_block_seek_reader.rs: MultipleBlockSeekReader"]}
{"id": "C84", "title": "Downloads from other servers", "statement": "This client, downloading without encryption from any server which follows RFC 1350, 2347, 2348 and 7440 and answers the request with an OACK of its choice: whatever the network loses, duplicates, delays or reorders, the client's file is at all times a prefix of the served file in whole blocks of the confirmed size, and contains at least the blocks the server considers confirmed; if the server considers the transfer complete, the client has exactly the file, and if the client reports success, it has exactly the file and reports its size. As long as the client has not given up, the transfer can be completed on both sides, even if everything under way is lost.", "quantifier": "all files, all options of the client without encryption, all OACKs of at most 512 bytes, all windows, all schedules, file errors and networks (files of at most 55535 blocks, or a limit on the age of datagrams); completion: files within the client's limit, OACKs which confirm only what was asked for", "why_tests_cant": "The repository's tests use its own server, which sends data without waiting for the acknowledgement of its OACK; other servers wait for it and repeat the OACK, and grant other options. Losses and reorderings have no bound.", "anchors": ["src/client/receiver.rs: receive_file", "src/client/connection.rs: query_server, wait_for_initial_packet", "src/client/extensions.rs: parse_extensions", "src/writers/single_block_writer.rs: SingleBlockWriter::write_block"]}
{"id": "C85", "title": "This client never waits for a timer on a lossless network", "statement": "This client transfers a file without encryption to or from any server which follows RFC 1350, 2347, 2348 and 7440, and the network loses nothing: the transfer runs from window to window and completes on both sides without any time passing. In a download the client sends exactly one acknowledgement for each window, at once; in an upload it sends each window at once and no block twice.", "quantifier": "all files of any number of blocks, all options of the client without encryption, all answers of the server which confirm only what was asked for (downloads: an OACK; uploads: an OACK with a window of at most 10000 blocks, or an acknowledgement if the client asked for no window), all addresses from which the server may answer", "why_tests_cant": "A client which acknowledges one block late still completes every transfer, after the timeout of its peer; a test sees this only as time. Numbers of blocks and windows have no bound.", "anchors": ["src/client/receiver.rs: receive_file", "src/client/sender.rs: send_file", "src/client/connection.rs: query_server", "src/readers: next, free_block"]}
{"id": "C86", "title": "A connection of the server handles only datagrams which its own client sent", "statement": "Whatever datagrams arrive at the server, from whatever addresses and to whichever of its sockets: a datagram which the server handles as part of a client's transfer was sent from that client's address. Once the connection exists, its client's datagrams are given to its socket and to no other.", "quantifier": "all histories of either server with any number of clients, all datagrams from all addresses, all choices which the kernel has between sockets with the same port (`SO_REUSEPORT`), with or without change of port, every moment between the calls `bind` and `connect` of a new socket", "why_tests_cant": "The datagram must arrive between two system calls; tests use one client at a time, or the window of a few microseconds is never hit.", "anchors": ["std-binary/src/socket.rs: create_socket, create_bound_socket, UdpUnboundSocket::recv_from, UdpBoundSocket::recv", "src/server/connection_builder.rs: build_reader, build_writer", "src/server/single_thread.rs: server", "src/server/multi_thread.rs: server"]}
{"id": "C87", "title": "The windowed reader in fixed memory sends the same as the one which allocates", "statement": "In a build without allocator the windowed reader keeps the unacknowledged blocks in a fixed number of buffers (16). For every window size which can be configured it answers every history of calls like the reader of the other build: it never has more than the window's blocks unacknowledged, and every block it hands out, for the first time or again, is the piece of the file which its number says.", "quantifier": "all files, block sizes, window sizes, numbers of buffers and histories of calls (any acknowledgement numbers, retries, read failures, output buffers)", "why_tests_cant": "The repository's tests of the reader use windows of two blocks; the fault needs more unacknowledged blocks than there are buffers and a retry.", "anchors": ["src/readers/multiple_block_reader.rs: MultipleBlockReader::next, free_block, Buffers", "src/config.rs: MAX_BLOCKS_FOR_MULTI_READER"]}
{"id": "C88", "title": "The server in fixed memory serves each client with its own reader, or says that it is busy", "statement": "In a build without allocator the server keeps its clients in a table of 128 entries and the readers of downloads in pools of 64 (single block), 8 (windowed) and 64 (seeking) readers. Whatever requests come, whoever is served or given up and in whatever order: it never panics for lack of memory; every download reads through its own reader, which no other client's packets touch; every reader of a connection which is given up is available again; a valid read request is refused as busy exactly if no suitable reader is left; and a client whose request is accepted has a connection.", "quantifier": "all histories of requests, uses and timeouts, all capacities and configurations", "why_tests_cant": "The repository tests a pool with one reader; exhaustion, reuse and the interplay of table and pools need histories with many clients.", "anchors": ["src/server/single_thread.rs: server", "src/server/readers_available.rs: from_used", "src/server/connection_builder.rs: block_reader, build_reader", "src/readers/pool_reader.rs: PoolReader"]}
{"id": "C89", "title": "Packets in fixed memory: what does not fit is refused or left out, what fits is read as everywhere", "statement": "In a build without allocator file names have room for 150 bytes, error texts for 140 and option values for 88. A datagram is accepted exactly if it has the layout of a packet whose file name and error text fit; an option whose value does not fit is as if it had not been sent; datagrams without long strings are read as in other builds, with the same errors; a packet that fits is encoded within the fixed packet buffer and read back unchanged; and every option and every refusal that this program sends fits.", "quantifier": "all datagrams, all packets, all configurations and requests", "why_tests_cant": "The repository's packet tests use short strings and run with an allocator.", "anchors": ["src/packet.rs: from_bytes, to_bytes", "src/lib.rs: types", "src/config.rs: MAX_EXTENSION_VALUE_SIZE, MAX_DEFAULT_STRING_SIZE, MAX_FILE_PATH_SIZE"]}
{"id": "C90", "title": "Sizes and block numbers are computed without overflow", "statement": "For a server or client started from the command line, whatever options are negotiated and whatever block numbers arrive: the packet buffers can be made and hold a whole block with its header, the payload and padding sizes are computed without underflow or overflow in 16 bits, and block indices are computed without overflow in 64 bits in any exchange of fewer than 2^46 datagrams. Builds with and without overflow checks therefore behave the same.", "quantifier": "all accepted command lines, all requests and answers, all sequences of block numbers", "why_tests_cant": "Boundary values of 16 and 64 bit computations are reached by configurations and exchanges no test runs.", "anchors": ["src/buffer.rs: create_max_buffer", "src/config.rs: block_size_with_encryption", "src/block_mapper.rs: index", "src/server/connection.rs: send_bytes", "src/client/encryption_socket.rs: send_to"]}
{"id": "C91", "title": "Encryption in fixed memory: same datagrams and files, never beyond the buffers", "statement": "In a build without allocator, packets are sealed in a buffer of 1429 bytes and sealed files are processed in blocks of at most 1425 bytes. A packet is sealed to the same datagram as with an allocator if it fits and is refused with an error, not a crash, if it does not; with any options that can be agreed on, every packet of a transfer and every refusal of the server fits; a sealed request is opened as with an allocator; sealed files are read and written exactly as with an allocator whatever the buffer memory held before, and the length of a buffer is never set beyond its capacity (which would be undefined behaviour).", "quantifier": "all packets, keys, nonces, encryption levels and agreed options; all requests; all sealed files, block sizes, short reads and contents of memory", "why_tests_cant": "The repository's tests run with an allocator; the buffers overflow only for the largest blocks, and setting a length beyond the capacity is not detected at run time.", "anchors": ["src/encryption.rs: apply_bit_padding, Encryptor::encrypt, StreamEncryptor::encrypt", "src/encrypted_packet.rs", "src/buffer.rs: extend_from_slice, resize_data_block_07", "src/readers/encrypted_stream_reader.rs: read", "src/writers/encrypted_stream_writer.rs: write"]}
{"id": "C92", "title": "Key files in fixed memory", "statement": "In a build without allocator and standard library a key file counts as the file without the lines longer than 140 bytes (line break included), and the first 128 authorized keys are taken. Hence nobody is authorized whose key is not in the file; files with short lines and at most 128 keys are read as in other builds; servers whose name with port has at most 94 bytes are recorded and recognised as in other builds, and recording a longer name changes no later lookup; a private key file whose first line has at most 139 bytes is read as in other builds, any other as if it were not there.", "quantifier": "all key files, host names, keys and sequences of lines", "why_tests_cant": "The tests use two short lines and an allocator.", "anchors": ["src/key_management.rs: read_authorized_keys, get_from_known_hosts", "src/std_compat.rs: Lines::next", "std-binary/src/std_compat.rs: read_line", "std-binary/src/encryption_io.rs: handle_hosts_file, read_private_value_or_file"]}
{"id": "C93", "title": "File names in fixed memory", "statement": "In a build without allocator a requested name of less than 150 bytes denotes the file it denotes with an allocator; a name of exactly 150 bytes does so too if normalisation removes something from it, and otherwise denotes the name without its last character. Whatever the name, an upload changes and creates nothing outside the server directory if there is no symbolic link in it. A download opens the same file as with an allocator if the file's full path has at most 150 bytes and is refused otherwise; listings are not limited.", "quantifier": "all requested names of at most 150 bytes, file systems, working directories and server configurations", "why_tests_cant": "The tests normalise a handful of short names, with an allocator.", "anchors": ["src/server/validation.rs: normalize_remote_name, validate_file_name", "src/lib.rs: FilePath", "std-binary/src/io.rs: create_server_reader, create_server_writer, validate_path"]}
{"id": "C94", "title": "The clock of builds without the standard library", "statement": "In a build without the standard library the server reads times from a callback. As long as the clock is never set back, the server never panics over its timers and after every history it has exactly the connections other builds have. A step panics only if a timer of some connection was started later than the clock now shows; the search for idle connections panics exactly if some running transfer made progress later than the clock now shows.", "quantifier": "all server configurations, histories of requests, datagrams, turns and searches for idle connections, and clock readings", "why_tests_cant": "Tests run with the standard library's monotonic clock; nobody sets a clock back in a test.", "anchors": ["src/std_compat.rs: time::Instant", "std-binary/src/io.rs: instant_callback", "src/server/helpers/read.rs: send_data_block", "src/server/helpers/connection.rs: timeout_client", "src/server/single_thread.rs: server"]}
{"id": "C95", "title": "No nonce is used twice for a file", "statement": "While a file is encrypted piece by piece, the cipher is never called twice with the same nonce, whatever the buffer sizes, short or failed reads and reads after the end; the counter never leaves its 32 bits, only the last call is marked as last, and files with different prefixes share no nonce.", "quantifier": "all files, prefixes, sequences of buffer sizes, short reads and failures, every AEAD", "why_tests_cant": "A test would need 2^32 pieces to meet the end of the counter, and says nothing about other sequences of failures.", "anchors": ["src/encryption.rs: StreamEncryptor", "src/readers/encrypted_stream_reader.rs: StreamReader::read"]}
{"id": "C96", "title": "The client's clock in builds without the standard library", "statement": "In a build without the standard library the client reads times from a callback. As long as the clock is not set back, a transfer does what it does in other builds: it never panics over its timers, sends the same datagrams, writes the same file and returns the same result. An iteration panics only if the clock was set back. A download panics exactly if nothing arrives while the clock shows a time before the last progress, or if the last block arrives while the clock shows a time before the start of the transfer: the file is complete then, and the result is lost. An upload panics at the next iteration.", "quantifier": "all client configurations, jobs, sequences of received datagrams, silences and failures, and clock readings", "why_tests_cant": "Tests run with the standard library's monotonic clock; nobody sets a clock back in a test.", "anchors": ["src/std_compat.rs: time::Instant", "std-binary/src/io.rs: instant_callback", "src/client/receiver.rs: receive_file", "src/client/sender.rs: send_file", "src/client/connection.rs: wait_for_initial_packet", "src/flow_control.rs: RateControl"]}
{"id": "C97", "title": "An idle uploading client sleeps, and never too long", "statement": "An uploading client waits for a datagram only when it has nothing better to do, and every wait is 3 to 255 ms: it does not wait in a round in which it has sent a block nor in the round after a datagram of the server. Of any four rounds in a row without a block sent and without a datagram of the server it waits in at least one, so it never spins, also not under datagrams of strangers; while nothing happens at all it may wait more than 16 s in any 128 rounds. Exactly: the wait is the number of fruitless calls since the last activity modulo 256 ms, none up to 2.", "quantifier": "all client configurations, jobs, and sequences of received datagrams, silences and failures of any length", "why_tests_cant": "Tests transfer files over a fast loopback device, where the client is never idle for long; the counter wraps around after 256 fruitless calls.", "anchors": ["src/client/sender.rs: send_file"]}
{"id": "C98", "title": "Measured round trips are round trips", "statement": "While a file is uploaded, a sample of the round trip time taken from the acknowledgement of a block whose number in packets is not 0 is the time from sending a block of this number to this acknowledgement, and no other acknowledgement came in between. The last block of a window (and no other one), sent while none is measured, is measured from its first sending, also when it is repeated before the patience is over; an acknowledgement of another block gives no sample and ends the measurement, and a repeated acknowledgement gives none.", "quantifier": "all histories of blocks sent, repeated and acknowledged, in any order and at any times", "why_tests_cant": "A test of the measurement sends one block and acknowledges it; wrong samples need histories with repeated acknowledgements and block numbers which wrap around.", "anchors": ["src/flow_control.rs: RateControl::start_rtt, RateControl::end_rtt", "src/client/sender.rs: send_file"]}

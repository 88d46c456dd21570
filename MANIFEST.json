{"claims": [
 {"property": "C01", "status": "proved", "theorems": ["Tftp.c01_round_trip", "Tftp.c01_encoding_injective", "Tftp.c01_empty_option_ack_not_decodable"], "note": ""},
 {"property": "C02", "status": "proved", "theorems": ["Tftp.c02_to_buffer", "Tftp.c02_prepend_data_header"], "note": ""},
 {"property": "C03", "status": "proved", "theorems": ["Tftp.c03_decode_iff_wire", "Tftp.c03_rejects", "Tftp.c03_utf8"], "note": "c03_utf8: text means exactly the UTF-8 encodings (RFC 3629) of sequences of Unicode scalar values."},
 {"property": "C04", "status": "proved", "theorems": ["Tftp.c04_unknown_options_ignored", "Tftp.c04_request", "Tftp.c04_option_ack"], "note": "c04_request/c04_option_ack: for whole datagrams, with an arbitrary (also malformed) rest."},
 {"property": "C05", "status": "proved", "theorems": ["Tftp.c05_index_recovered", "Tftp.c05_block_then_index", "Tftp.c05_stray_block_breaks_mapping", "Tftp.c05_bound_sharp"], "note": "bound is sharp; witnesses show what happens outside of it"},
 {"property": "C06", "status": "proved", "theorems": ["Tftp.c06_single_block_reader"], "note": ""},
 {"property": "C07", "status": "proved", "theorems": ["Tftp.c07_multiple_block_reader", "Tftp.c07_blocks_exact_any_acks"], "note": ""},
 {"property": "C08", "status": "proved", "theorems": ["Tftp.c08_seek_reader", "Tftp.c08_future_ack_confirms_everything"], "note": ""},
 {"property": "C09", "status": "proved", "theorems": ["Tftp.c09_readers_equivalent", "Tftp.c09_multi_seek_any_acks", "Tftp.c09_seek_free_underflow_after_finish"], "note": ""},
 {"property": "C10", "status": "proved", "theorems": ["Tftp.c10_writer_in_order", "Tftp.c10_exactly_next_block_stored", "Tftp.c10_short_write_loses_bytes"], "note": "underlying file writes are full writes; the short write witness shows why that is needed"},
 {"property": "C11", "status": "proved", "theorems": ["Tftp.c11_received_is_prefix", "Tftp.c11_received_grows"], "note": ""},
 {"property": "C12", "status": "proved", "theorems": ["Tftp.c12_success_means_identical"], "note": ""},
 {"property": "C13", "status": "proved", "theorems": ["Tftp.c13_reported_size", "Tftp.c13_confirmed_le_stored"], "note": ""},
 {"property": "C14", "status": "proved", "theorems": ["Tftp.c14_progress", "Tftp.c14_completes", "Tftp.c14_no_dallying"], "note": "c14_no_dallying: a lost final acknowledgement leaves the sender retrying against a receiver which is gone"},
 {"property": "C15", "status": "proved", "theorems": ["Tftp.c15_ack_policy", "Tftp.c15_acks_stored_and_monotone"], "note": ""},
 {"property": "C16", "status": "proved", "theorems": ["Tftp.c16_server_limits", "Tftp.c16_all_connections", "Tftp.c16_text", "Tftp.printed_iff"], "note": "c16_text fixes what is used and confirmed for each option, with numbers as texts of digits (Spec.Numeral, Spec.Printed) instead of the model's parser and printer."},
 {"property": "C17", "status": "partial", "theorems": ["Tftp.c17_client_limits", "Tftp.c17_unrequested_option_partial", "Tftp.c17_bad_value_rejected", "Tftp.c17_bad_value_no_error_packet", "Tftp.c17_text", "Tftp.numeral_iff"], "note": "accepting only requested options within limits is proved; an error packet is sent only for options not requested, not for values out of range (witness) c17_text: the numbers taken are those written in the acknowledgement."},
 {"property": "C18", "status": "proved", "theorems": ["Tftp.c18_agreement", "Tftp.c18_wire"], "note": ""},
 {"property": "C19", "status": "proved", "theorems": ["Tftp.c19_normalize", "Tftp.c19_safe", "Tftp.c19_idempotent", "Tftp.c19_rejected_iff", "Tftp.c19_text"], "note": "c19_text says it in terms of characters and the Unicode property White_Space, without the model's trim."},
 {"property": "C20", "status": "proved", "theorems": ["Tftp.c20_reader", "Tftp.c20_writer", "Tftp.c20_writer_contained_names", "Tftp.c20_writer_contained", "Tftp.c20_refused_upload_creates_outside", "Tftp.c20_absolute_name_no_effect"], "note": "file handles are contained; the witness shows that a refused upload through a symbolic link still creates the file outside"},
 {"property": "C21", "status": "partial", "theorems": ["Tftp.c21_size_limit", "Tftp.c21_announced_size_refused", "Tftp.c21_size_limit_until_failure_partial", "Tftp.c21_single_thread_unbounded", "Tftp.c21_single_thread_bypass", "Tftp.c21_text", "Tftp.c21_huge_announcement_ignored"], "note": "the bound holds for the client and the multi threaded server; for the single threaded server it is false after the failing block (witness) c21_text states the refusal for every way of writing the number; an announcement above 64 bits is ignored."},
 {"property": "C22", "status": "proved", "theorems": ["Tftp.c22_table_bound", "Tftp.c22_isolation", "Tftp.c22_answers", "Tftp.c22_full_ignored", "Tftp.c22_multi_thread_table"], "note": "single threaded server"},
 {"property": "C23", "status": "proved", "theorems": ["Tftp.c23_authorized_keys", "Tftp.c23_refused", "Tftp.c23_all_connections"], "note": ""},
 {"property": "C24", "status": "partial", "theorems": ["Tftp.c24_required_full_partial", "Tftp.c24_data_level_accepted"], "note": "the request must arrive sealed to the server key; the level of the transfer itself can be lowered by the client (witness)"},
 {"property": "C25", "status": "partial", "theorems": ["Tftp.c25_known_key_partial", "Tftp.c25_oack_partial", "Tftp.c25_only_decrypted_data_is_written", "Tftp.c25_plain_answer_downgrades", "Tftp.Toy.c25_full_without_key_downgrades", "Tftp.Toy.c25_protocol_becomes_data", "Tftp.Toy.c25_plain_answer_sends_plain_text", "Tftp.Toy.c25_foreign_datagram_downgrades", "Tftp.c25_optional_falls_back"], "note": "The full statement is false of the code (findings): without knowledge of the server key a plain acknowledgement, or level none for a full request, switches encryption off, and protocol may become data. Proved: with a known server key and a mandatory level no run ever sends file data in the clear; without it, none after an option acknowledgement (data, protocol); only decrypted data is written. Finding: the plain answer may come from anybody. c25_optional_falls_back: an optional level falls back exactly to the behaviour of a client without encryption when the server confirms none."},
 {"property": "C26", "status": "proved", "theorems": ["Tftp.c26_remove_iff", "Tftp.c26_padding_round_trip"], "note": ""},
 {"property": "C27", "status": "proved", "theorems": ["Tftp.c27_data", "Tftp.c27_packet", "Tftp.c27_initial", "Tftp.c27_request_reaches_server", "Tftp.c27_client_socket"], "note": ""},
 {"property": "C28", "status": "partial", "theorems": ["Tftp.c28_oack_size", "Tftp.c28_datagram_size", "Tftp.c28_ack_and_oack_fit", "Tftp.c28_encrypted_request_partial", "Tftp.c28_encrypted_request_too_long", "Tftp.c28_single_thread", "Tftp.c28_multi_thread", "Tftp.c28_everything", "Tftp.c28_everything_multi", "Tftp.c28_refusals", "Tftp.c28_client_partial", "Tftp.c28_client_any_server", "Tftp.c28_server_keeps_sealed", "Tftp.Toy.c28_unsealed_level_too_long", "Tftp.Toy.c28_complaint_too_long"], "note": "an encrypted request with a long file name does not fit (witness) whole runs: c28_single_thread/c28_multi_thread: every datagram either server ever sends to an address fits the block size agreed with it plus 4 (refusals: the largest block allowed plus 4), after any history; c28_client_partial: the same for the client, unless the server confirms a level without encryption in a sealed handshake (then 41 bytes more, witness c28_unsealed_level_too_long; this server never does, c28_server_keeps_sealed). The client's complaint about unrequested options in a sealed handshake is also 41 bytes too long (c28_complaint_too_long)."},
 {"property": "C29", "status": "partial", "theorems": ["Tftp.c29_decode_never_panics", "Tftp.c29_open_never_panics_partial", "Tftp.c29_data_level_panic", "Tftp.c29_error_reply_partial", "Tftp.c29_long_name_panic", "Tftp.c29_quote_panics_iff", "Tftp.c29_sending_never_panics", "Tftp.c29_single_thread_partial", "Tftp.c29_survives", "Tftp.c29_run_of_runC", "Tftp.c29_needs_signature", "Tftp.c29_blank_name_ends_server", "Tftp.c29_blank_name_delivered", "Tftp.c29_multi_thread_partial", "Tftp.c29_thread_ends_alone", "Tftp.c29_client_partial", "Tftp.c29_thread_ends"], "note": "false for data level packets of 40 to 43 bytes and for some names (witnesses) For whole servers: c29_single_thread_partial and c29_multi_thread_partial say exactly which events end the process; c29_survives: no history without poison datagrams does; c29_needs_signature: with a list of authorized keys a request which ends the server is signed by one of them; c29_blank_name_ends_server: without list one unauthenticated request for a name of forty ideographic spaces ends any server."},
 {"property": "C30", "status": "partial", "theorems": ["Tftp.c30_foreign_ignored_partial", "Tftp.c30_plain_client_partial", "Tftp.c30_foreign_aborts_encrypted", "Tftp.c30_short_does_not_decrypt", "Tftp.c30_foreign_blocks_timeout", "Tftp.c30_handshake_room", "Tftp.c30_empty_datagram_breaks_handshake", "Tftp.c30_other_port_aborts", "Tftp.Toy.c30_foreign_datagram_corrupts"], "note": "False in general (findings): encrypted transfers are aborted by any undecryptable datagram from anywhere, the handshake loses receive room, timeouts are not checked. Proved for unencrypted transfers: foreign datagrams change neither state nor output. Finding: a datagram from another port during the handshake can become file contents."},
 {"property": "C31", "status": "partial", "theorems": ["Tftp.c31_repeats", "Tftp.c31_gives_up_partial", "Tftp.c31_pause_within_time_left", "Tftp.c31_pause_doubles", "Tftp.c31_gives_up_in_time", "Tftp.c31_few_requests", "Tftp.c31_client_in_time", "Tftp.c31_foreign_blocks_timeout", "Tftp.c31_download_gives_up", "Tftp.c31_upload_gives_up"], "note": "Proved for silence; finding: foreign datagrams postpone the timeout for ever."},
 {"property": "C32", "status": "partial", "theorems": ["Tftp.c32_upload_partial", "Tftp.c32_download_short_partial", "Tftp.c32_retry_without_options", "Tftp.c32_download_truncated", "Tftp.c32_download_508_hangs", "Tftp.c32_unexpected_answer"], "note": "False for downloads (findings): files of 512 bytes or more are truncated after the first block, 508 byte files hang. Proved: uploads continue with 512 byte blocks without options (window as requested), short downloads, one retry without options."},
 {"property": "C33", "status": "partial", "theorems": ["Tftp.c33_round_trip", "Tftp.c33_texts_distinct", "Tftp.c33_accepted_texts_partial", "Tftp.c33_full_length_text_exact", "Tftp.c33_short_text_accepted", "Tftp.c33_long_text_accepted"], "note": "round trip proved; rejecting texts which are not exactly a key is false (witnesses), the exact set of accepted texts is proved instead"},
 {"property": "C34", "status": "proved", "theorems": ["Tftp.c34_known_hosts", "Tftp.c34_trust_on_first_use", "Tftp.c34_broken_entry_hides_later_ones"], "note": "file must not end in a bare carriage return; host name one word, not a comment"},
 {"property": "C35", "status": "partial", "theorems": ["Tftp.c35_keys_in_order", "Tftp.c35_bad_line_rejected_partial", "Tftp.c35_keys_from_lines", "Tftp.c35_non_utf8_line_skipped", "Tftp.c35_text"], "note": "lines which are not UTF-8 are silently skipped (witness) c35_text: which lines are blank or comments, in terms of characters."},
 {"property": "C36", "status": "proved", "theorems": ["Tftp.c36_round_trip", "Tftp.c36_as_file", "Tftp.c36_failed_read_harmless", "Tftp.c36_short_read_truncates"], "note": "For files with fewer blocks than the 32 bit counter and an inner file whose reads are not short before the end (finding c36_short_read_truncates)."},
 {"property": "C37", "status": "proved", "theorems": ["Tftp.c37_prefix", "Tftp.c37_prefix_after_seek", "Tftp.c37_full_blocks", "Tftp.c37_drains", "Tftp.c37_error_loses_bytes"], "note": "Every interleaving of the two threads, sequentially consistent. Bytes held back are lost if the file itself reports an error (finding c37_error_loses_bytes)."},
 {"property": "C38", "status": "proved", "theorems": ["Tftp.c38_clock", "Tftp.c38_last_progress", "Tftp.c38_idle_clients", "Tftp.c38_removed_in_time", "Tftp.c38_multi_thread"], "note": ""},
 {"property": "C39", "status": "proved", "theorems": ["Tftp.c39_multiplier", "Tftp.c39_retransmission", "Tftp.c39_goes_back", "Tftp.c39_not_early"], "note": "c39_goes_back and c39_not_early say in terms of the opened file, the confirmed bytes and the datagrams sent which block goes out: after 255 timeouts the block right after the confirmed bytes, before one timeout (and without a datagram of the client) only later blocks."},
 {"property": "C40", "status": "partial", "theorems": ["Tftp.c40_round_robin_partial", "Tftp.c40_joining_shifts_turns", "Tftp.c40_overtaking_bounded", "Tftp.c40_starvation"], "note": "proved while no client joins or leaves; otherwise a client can be passed over (witness) c40_overtaking_bounded: in any stretch of any history a waiting client is overtaken fewer than max_connections*(changes+1) times, changes being the number of times a client joins, finishes or fails; c40_starvation: without a bound on the changes the waiting is unbounded."},
 {"property": "C41", "status": "proved", "theorems": ["Tftp.c41_silent", "Tftp.c41_only_authorized", "Tftp.c41_plain_errors"], "note": "true for credentials and files as stated; beyond it, size and name errors are sent in the clear (finding)"},
 {"property": "C42", "status": "proved", "theorems": ["Tftp.c42_last_option_wins", "Tftp.c42_request", "Tftp.c42_ninth_ignored"], "note": "c42_request: the whole decoded request, for fewer than eight distinct options; with all eight present the decoder stops (c42_ninth_ignored)."},
 {"property": "C43", "status": "proved", "theorems": ["Tftp.c43_pool"], "note": "all histories of create/use/drop, any pool capacity below 65535 (the real ones are 8 and 64)"},
 {"property": "C44", "status": "proved", "theorems": ["Tftp.c44_level_text"], "note": ""},
 {"property": "C45", "status": "proved", "theorems": ["Tftp.c45_initial_rate", "Tftp.c45_initial_rate_overflow", "Tftp.c45_rate_positive", "Tftp.c45_retry_interval", "Tftp.c45_idle_wait", "Tftp.c45_idle_wraps", "Tftp.c45_sent_overflow", "Tftp.c45_growth", "Tftp.c45_limited_by_receiver", "Tftp.c45_no_overflow", "Tftp.c45_wait_exact", "Tftp.c45_no_wait_after_datagram", "Tftp.loop_wait", "Tftp.c45_restart", "Tftp.c45_large_upload", "Tftp.handedOut_ge"], "note": "Rate bounds for all block sizes and histories of rate operations; c45_sent_overflow records the finding that the u32 byte counter overflows after 4 GiB, c45_idle_wraps that the idle counter wraps. c45_no_overflow: nothing else overflows. c45_growth and c45_limited_by_receiver bound the rate from above, with the floating point measurements as inputs. c45_wait_exact gives the server's wait exactly as a function of the history of calls, loop_wait and c45_no_wait_after_datagram connect it to the server's loop; c45_restart: without acknowledgements the rate falls back to the initial one. c45_large_upload: in a build with overflow checks an upload of 4 GiB or more panics before its end, whatever the reader and the calls (if the socket takes every packet)."},
 {"property": "C46", "status": "partial", "theorems": ["Tftp.c46_private_key_from_file_partial", "Tftp.c46_file_name_used_as_key"], "note": "false when the file name is itself base64 text (witness)"},
 {"property": "C47", "status": "proved", "theorems": ["Tftp.c47_main_socket_polled", "Tftp.c47_one_read_per_client", "Tftp.c47_every_client_read"], "note": ""},
 {"property": "C48", "status": "proved", "theorems": ["Tftp.c48_insert", "Tftp.c48_entry", "Tftp.c48_remove", "Tftp.c48_retain", "Tftp.c48_update", "Tftp.c48_all_histories", "Tftp.c48_answers", "Tftp.c48_bounded"], "note": "refinement of the array map to a finite map of bounded size c48_answers: for every capacity and history of calls (insert, entry, remove, retain, get, get_mut, contains_key, index, len, iter, from_iter) the answers are those of an independent finite-map machine; c48_bounded: that machine never holds more than CAP keys."},
 {"property": "C49", "status": "partial", "theorems": ["Tftp.c49_short_is_last_partial", "Tftp.c49_race_window", "Tftp.c49_finish_race"], "note": "False in general (finding c49_finish_race): the writer may append and set the flag between the read and the load of the flag."},
 {"property": "C50", "status": "proved", "theorems": ["Tftp.c50_single_thread", "Tftp.c50_single_thread_step", "Tftp.c50_multi_thread", "Tftp.c50_multi_thread_step", "Tftp.c50_broken_socket"], "note": "c50_broken_socket: after a failure of the main socket of the multi threaded server nobody is admitted."},
 {"property": "C51", "status": "proved", "theorems": ["Tftp.c51_slot_reused", "Tftp.c51_full_ignored"], "note": ""},
 {"property": "C52", "status": "proved", "theorems": ["Tftp.c52_upload", "Tftp.c52_upload_single_thread", "Tftp.c52_upload_multi_thread"], "note": "Assumptions are in Spec.Honest, Spec.Os, Spec.Allowed (EndWorld.lean): key exchange works (proved in C76), age limit on datagrams or small files, only genuine datagrams of the server during the handshake, files take whole blocks or fail. A run which meets them and succeeds: ToyEnd.lean. Also for the whole single and multi threaded servers with arbitrary other clients. Connections on a new port as well as (one per run) on the server's main port. During the transfer the network may also deliver forged datagrams, anything which does not open under the cipher of the session (an attacker without the keys; with encryption of the protocol)."},
 {"property": "C53", "status": "proved", "theorems": ["Tftp.c53_download", "Tftp.c53_download_single_thread", "Tftp.c53_download_multi_thread"], "note": "As C52. The first answer is an acceptance of the server (finding C32 otherwise). Also for the whole single and multi threaded servers with arbitrary other clients. Connections on a new port as well as (one per run) on the server's main port. Forged datagrams as in C52. The order clause of Spec.Allowed only concerns datagrams of the transfer which the handshake's socket reads as an answer."},
 {"property": "C54", "status": "partial", "theorems": ["Tftp.c54_acceptance_sent_once_partial", "Tftp.Toy.c54_lost_acceptance_truncates", "Tftp.c54_sealed_download_partial"], "note": "The statement is false of the code (witness c54_lost_acceptance_truncates: a lost acceptance makes the client report success after the first block of a download). Proved for all runs: the acceptance is never repeated while the connection lives. Where it holds: if the handshake is encrypted with the server's known key and what the session's cipher seals does not open under the handshake's, then whatever is lost or overtaken, a download ends with the whole file or with an error (c54_sealed_download_partial; the example in ToyOrder.lean is the run of the witness with encryption)."},
 {"property": "C55", "status": "partial", "theorems": ["Tftp.c55_own_bytes_partial", "Tftp.c55_stored_file_kept_partial", "Tftp.c55_repeated_request_truncates", "Tftp.c55_concurrent_uploads_mix", "Tftp.Toy.c55_duplicate_request_empties_file"], "note": "Proved without allow_overwrite: every stored file keeps exactly the bytes its own connection wrote. With allow_overwrite the statement is false (witnesses: a delayed duplicate of the request empties the file; concurrent uploads mix)."},
 {"property": "C56", "status": "proved", "theorems": ["Tftp.c56_upload_is_sealed", "Tftp.c56_only_genuine", "Tftp.c56_round_trip", "Tftp.c56_any_block_size"], "note": "Ideal authenticated encryption (StreamAead). c56_only_genuine holds for every server and network."},
 {"property": "C57", "status": "partial", "theorems": ["Tftp.c57_success_is_complete_partial", "Tftp.Toy.c57_server_truncates"], "note": "Proved if the agreed block size is not smaller than that of the encrypted file; refuted otherwise: a server which agrees on 512 and sends one genuine block ends the download with success and a cut file."},
 {"property": "C58", "status": "partial", "theorems": ["Tftp.c58_listing_partial", "Tftp.c58_listed_file_partial", "Tftp.c58_listed_directory_partial", "Tftp.c58_listing_total", "Tftp.c58_listing_hides_file", "Tftp.c58_newline_forges_entry", "Tftp.c58_text"], "note": "Proved for UTF-8 names without line break, which normalisation keeps. Findings: a name with a line break, which a client can upload, forges entries; a file with the name of the listing cannot be fetched. c58_text: which names normalisation keeps, in terms of characters."},
 {"property": "C59", "status": "proved", "theorems": ["Tftp.c59_same_name_same_file", "Tftp.c59_fetch_what_was_stored"], "note": "All uploads on one file system (Disk). Names of listings are excluded (c58_listing_hides_file)."},
 {"property": "C60", "status": "proved", "theorems": ["Tftp.c60_pinned", "Tftp.c60_first_use", "Tftp.c60_given_key", "Tftp.c60_pinned_run_is_encrypted", "Tftp.c60_missing_file_blocks", "Tftp.c60_other_spelling_not_pinned"], "note": "Known hosts file that exists at the first run. Findings: with a missing file and no --server-public-key no run ever connects or creates it; keys belong to the spelling of the endpoint, so host and host:69 are pinned separately."},
 {"property": "C61", "status": "partial", "theorems": ["Tftp.c61_bytes_partial", "Tftp.c61_crash_partial", "Tftp.c61_cut_locks_out", "Tftp.c61_crash_blocks_host", "Tftp.c61_entries_kept_partial", "Tftp.c61_concurrent_appends_mix", "Tftp.c61_third_host_blocked"], "note": "c61_bytes_partial: after any number of bytes of the entry (crash, full disk) other hosts and old entries are unchanged and the lookup of the new host is computed exactly; c61_entries_kept_partial: with any number of clients appending at once, each cut anywhere, entries that were in the file stay. The rest is false: an append cut anywhere inside the text of the key locks the host out for ever (c61_cut_locks_out: later runs fail, or use the first bytes of the key and zeros); two interleaved appends can pin one host to the key of the other server, or make a third host unreachable."},
 {"property": "C62", "status": "proved", "theorems": ["Tftp.c62_on_close", "Tftp.c62_on_create", "Tftp.c62_on_create_count", "Tftp.c62_mirrored", "Tftp.c62_names_differ", "Tftp.c62_recreated_never_told"], "note": "The event loop, the flags and the names. Threads, the watcher and losses of its queue are inputs. Finding: a file created anew before it was closed leaves the first transfer waiting for ever (c62_recreated_never_told, with c37_full_blocks: such a transfer never gets a short block)."},
 {"property": "C63", "status": "proved", "theorems": ["Tftp.c63_only_its_file", "Tftp.c63_refused_changes_nothing", "Tftp.c63_default_name", "Tftp.c63_default_in_cwd", "Tftp.c63_failed_download_truncates", "Tftp.home_cli"], "note": "No other program changes the file system meanwhile; a slash at the end of the local path is disregarded. Finding: a download which fails after the acceptance has destroyed the previous contents (c63_failed_download_truncates)."},
 {"property": "C64", "status": "proved", "theorems": ["Tftp.c64_upload_accepted", "Tftp.c64_upload_accepted_iff", "Tftp.c64_stored_as_named"], "note": "File permissions, full disks and other errors of the operating system are left out."},
 {"property": "C65", "status": "proved", "theorems": ["Tftp.c65_limits", "Tftp.c65_authorized_keys", "Tftp.c65_authorized_default", "Tftp.c65_require_full", "Tftp.c65_starts_iff", "Tftp.c65_no_private_key", "Tftp.c65_empty_key_file", "Tftp.Toy.optSrv_started", "Tftp.Toy.signed_accepted"], "note": "The command line parser's own work (splitting, flags) is not modelled, only its range checks. Findings: without --private-key a server that requires encryption starts but silently serves nobody; an empty private key file is accepted as the key of zeros."},
 {"property": "C66", "status": "proved", "theorems": ["Tftp.c66_values", "Tftp.c66_given_key_encrypts", "Tftp.c66_known_host_encrypts", "Tftp.c66_unknown_level", "Tftp.c66_honest", "Tftp.c66_no_default_port", "Tftp.c66_short_encryption_key", "Tftp.c66_endpoint", "Tftp.c66_endpoint_text"], "note": "Findings: the default port 69 never works without --listen, the client stops (c66_no_default_port); an --encryption-key of 32 characters, as the help asks for, is base64 of 24 bytes, so the last 8 bytes of the key used are zero (c66_short_encryption_key). c66_endpoint_text: any spelling of the port."},
 {"property": "C67", "status": "proved", "theorems": ["Tftp.c67_every_datagram_read", "Tftp.c67_taken_is_handled", "Tftp.c67_in_order", "Tftp.c67_every_request_read", "Tftp.c67_request_is_handled", "Tftp.ploop_loop", "Tftp.c67_numbers_wrap"], "note": "The poller is modelled as a one shot, level triggered queue of ready sockets; errors of the poller itself are left out. Needs fewer than 2^32-1 accepted clients: socket numbers are then used again, and two live clients with the same number lose notifications (c67_numbers_wrap)."},
 {"property": "C68", "status": "proved", "theorems": ["Tftp.c68_never_early", "Tftp.c68_gives_up", "Tftp.since_progress"], "note": "Times are whole milliseconds. An acknowledgement of any number counts as progress of an upload, also a repeated one, as in the code. If the file or the socket fails in the last iteration the error is an I/O error instead."},
 {"property": "C69", "status": "proved", "theorems": ["Tftp.c69_span", "Tftp.c69_total", "Tftp.c69_ends", "Tftp.c69_server", "Tftp.backoff_sq"], "note": "Stated for the life of one connection (which by C50 is what each address sees of either server) and, for the rate, for the single threaded server with all its clients. Counts datagrams, not bytes."},
 {"property": "C70", "status": "proved", "theorems": ["Tftp.c70_request", "Tftp.c70_plain_request", "Tftp.requestOpts_demand"], "note": "With a known server key and level protocol or full the request is encrypted by the socket; that the server opens it to the same request is part of C52/C53."},
 {"property": "C71", "status": "proved", "theorems": ["Tftp.c71_encrypted_upload", "Tftp.c71_prefer_seek", "Tftp.reader_file", "Tftp.Toy.c71_prefer_seek_witness"], "note": "Reads of the local file fill the buffer except at its end, or fail. c71_prefer_seek_witness: with --prefer-seek the loss of a single data packet ends an encrypted upload."},
 {"property": "C72", "status": "proved", "theorems": ["Tftp.c72_growing_upload", "Tftp.growing_step", "Tftp.Toy.c72_race_witness", "Tftp.Toy.c72_slow_writer_witness", "Tftp.growing_seek"], "note": "Sequentially consistent model of the flag; the writer only appends and then sets the flag; the race of C49 (append and close between read and load of the flag) is excluded by the hypothesis raceFree, and c72_race_witness shows that it must be. prefer_seek is off, as in sync.rs. Reads of the file which fail with another error are left out (they end the upload)."},
 {"property": "C73", "status": "proved", "theorems": ["Tftp.c73_growing_encrypted", "Tftp.sealing_step", "Tftp.sealing_file", "Tftp.sealingOver_noSeek"], "note": "The stream cipher is a parameter (StreamAead). Same hypotheses as C72; block size at most 1425 (the limit of StreamReader). sealing_file: over a regular file the composed source is the one of C71."},
 {"property": "C74", "status": "proved", "theorems": ["Tftp.c74_upload", "Tftp.c74_download", "Tftp.c74_download_time"], "note": "Existence of a completing continuation (events Faultless, datagrams only ones which were sent, times not decreasing); c74_upload completes at the present moment if the client's transfer timer has not run out; c74_download waits for the server's retransmission timers. Hypotheses: Honest and Reach as in C52/C53; the receiving side's size limit allows the file. The model is that of C52/C53. c74_download_time bounds the time: at most two waits of 255 retry times per missing block; dropping the connection for inactivity is not among the events of Works."},
 {"property": "C75", "status": "proved", "theorems": ["Tftp.c75_upload", "Tftp.c75_download"], "note": "From the initial state of C52/C53 (Parties.init), by Faultless events and the server's acceptance. Hypotheses: Honest, Os (see C52), the session cipher does not open what was not encrypted with it (Spec.Foreign), and the server accepts the request. The download is for servers which answer with an option acknowledgement. Instances with and without encryption, on a new port and on the main port, in ToyStart.lean."},
 {"property": "C76", "status": "proved", "theorems": ["Tftp.c76_session_cipher", "Tftp.c76_handshake_cipher", "Tftp.c76_negotiated", "Tftp.c76_os", "Tftp.c76_known", "Tftp.c76_copied_generator"], "note": "The libraries x25519_dalek/ed25519_dalek are an abstract structure (Curve) with three laws: 32 byte keys, symmetry of the exchange, and the X25519 form of a verifying key is the public key of the X25519 form of its signing key. c76_os and c76_known give the key assumptions of Spec.Os and Spec.Honest (C52, C53, C74, C75) for two processes built from this code. c76_copied_generator is a finding. Instance with a transfer from beginning to end: ToyKeys.lean."},
 {"property": "C77", "status": "partial", "theorems": ["Tftp.c77_no_file_access", "Tftp.c77_only_refusals", "Tftp.c77_unsigned_single", "Tftp.c77_unsigned_multi", "Tftp.c77_stored", "Tftp.c77_stored_in_order", "Tftp.c77_sent", "Tftp.c77_single_thread_partial", "Tftp.c77_multi_thread_partial", "Tftp.c77_credentials_reused", "Tftp.c77_request_replay", "Tftp.c77_header_not_covered", "Tftp.c77_block_number", "Tftp.c77_plain_error"], "note": "Everything but the last sentence is proved; the last sentence is false of the code: the signature covers the session key only (c77_credentials_reused, c77_request_replay), level data does not cover the block number and takes error packets in the clear (c77_header_not_covered, c77_block_number, c77_plain_error)."},
 {"property": "C78", "status": "partial", "theorems": ["Tftp.c78_options", "Tftp.c78_size_partial", "Tftp.c78_name_partial", "Tftp.c78_file", "Tftp.c78_otherwise", "Tftp.c78_same_answers", "Tftp.c78_client", "Tftp.c78_client_short", "Tftp.c78_name_lost", "Tftp.c78_size_text_partial"], "note": "Proved but for two parts which are false of the code: refusals because of size or name are sent in the clear even to sealed requests and even with error_to_authorized_only (c78_size_partial, c78_name_partial), and a client with full encryption cannot read them (c78_name_lost). Names whose byte 100 is inside a character end the server instead (C29)."},
 {"property": "C79", "status": "partial", "theorems": ["Tftp.c79_request_wakes", "Tftp.c79_client_wakes_partial", "Tftp.Toy.c79_error_delays", "Tftp.reported_notified"], "note": "Requests are proved in full. Missing for clients, because false of the code: after a socket has reported an error it is not armed again, so the client's next datagram does not end the server's sleep (Toy.c79_error_delays); it is read when the sleep is over (C67)."},
 {"property": "C80", "status": "proved", "theorems": ["Tftp.Rfc.c80_download", "Tftp.Rfc.c80_completes", "Tftp.Rfc.c80_plain"], "note": "The peer, the network and the packets are a separate specification (Rfc.lean) which mentions no function of the code except the server's. c80_plain: when the connection is unencrypted."},
 {"property": "C81", "status": "proved", "theorems": ["Tftp.Rfc.c81_upload", "Tftp.Rfc.c81_completes"], "note": "The peer, the network and the packets are a separate specification (Rfc.lean) which mentions no function of the code except the server's."},
 {"property": "C82", "status": "proved", "theorems": ["Tftp.Rfc.c82_upload", "Tftp.Rfc.c82_download"], "note": "The rounds are a separate specification at the head of RfcRounds.lean, with the peers of Rfc.lean. The counts of datagrams say that nothing is sent twice."},
 {"property": "C83", "status": "proved", "theorems": ["Tftp.Rfc.c83_upload", "Tftp.Rfc.c83_completes"], "note": "The server is a separate specification from the RFCs (RfcServer.lean): of this code it uses only the decoder of OACK packets. The answer is any WriteAnswer; Confirms says which OACKs the client accepts."},
 {"property": "C84", "status": "partial", "theorems": ["Tftp.Rfc.c84_download", "Tftp.Rfc.c84_completes_partial", "Tftp.Rfc.c84_lost_ack"], "note": "Proved: what arrives, in full; completion from every state except one. Missing because it is false of the code: after the client has accepted the OACK and its acknowledgement is lost, the client disregards every repetition of the OACK, and never repeats the acknowledgement, so that a server which waits for it never starts (c84_lost_ack). Servers which do not answer with an OACK are the subject of C32."},
 {"property": "C85", "status": "proved", "theorems": ["Tftp.Rfc.c85_download", "Tftp.Rfc.c85_upload"], "note": "The exact schedule: all iterations of the client happen at the same time `t` with its retry timer not expired; the number of datagrams in both directions is exact. The file, the result of the client and the server's knowledge at the end are exact as well."},
 {"property": "C86", "status": "partial", "theorems": ["Tftp.c86_single_thread_partial", "Tftp.c86_multi_thread_partial", "Tftp.c86_single_thread_delivery", "Tftp.c86_multi_thread_delivery", "Tftp.c86_sealed_stray", "Tftp.Toy.c86_stolen"], "note": "Missing: datagrams which arrive between `bind` and `connect` of the new socket; from any address they are handled as the client's (`c86_stolen`: the upload consists of the datagram of another address). `Spec.Takes` is what is assumed of the kernel. In a sealed session such a datagram changes nothing unless it opens (`c86_sealed_stray`)."},
 {"property": "C87", "status": "partial", "theorems": ["Tftp.c87_same_answers", "Tftp.c87_blocks_exact", "Tftp.c87_no_window", "Tftp.c87_corrupt"], "note": "Missing because it is false: windows above the number of buffers (the library's configuration allows up to 65535, the command line up to 16). There the reader ignores the window (c87_no_window, for every such window and file) and after a retry sends block 16 with the bytes of block 18 (c87_corrupt)."},
 {"property": "C88", "status": "partial", "theorems": ["Tftp.c88_refines", "Tftp.c88_no_panic", "Tftp.c88_no_leak", "Tftp.c88_busy_iff", "Tftp.c88_joined", "Tftp.c88_not_lost", "Tftp.c88_lost"], "note": "Everything is proved for all capacities below 65535 and all histories, except that the last clause (accepted implies connected) holds only if max_connections is at most the size of the table (c88_not_lost); otherwise it is false (c88_lost: the acceptance is sent before the table is found full). That heapless' FnvIndexMap is a finite map is trusted."},
 {"property": "C89", "status": "proved", "theorems": ["Tftp.c89_decode", "Tftp.c89_fits", "Tftp.c89_round_trip", "Tftp.c89_encoded", "Tftp.c89_too_long", "Tftp.c89_options", "Tftp.c89_same", "Tftp.c89_negotiation", "Tftp.c89_refusals"], "note": "heapless' String and Vec are trusted to hold up to their capacity and to refuse more; c89_fits assumes a datagram of at most 1429 bytes, the size of the receive buffer. File names sent by a client are the caller's: they fit if they are at most 150 bytes."},
 {"property": "C90", "status": "proved", "theorems": ["Tftp.c90_block_numbers", "Tftp.c90_server", "Tftp.c90_client", "Tftp.c90_library"], "note": "Counters of transferred bytes (usize) and of the rate control (C45, with its overflow witnesses) are not part of this property; window arithmetic of the readers is in C06-C09, where the one checked subtraction is modelled. c90_library shows that the command line's limit is needed."},
 {"property": "C91", "status": "proved", "theorems": ["Tftp.c91_seal", "Tftp.c91_transfer", "Tftp.c91_refusals", "Tftp.c91_handshake_packet", "Tftp.c91_stream_read", "Tftp.c91_stream_write", "Tftp.c91_stream_file"], "note": "c91_handshake_packet shows the packets that do not fit: what a client sends other than its request while its socket is still set up for a sealed handshake (the complaint about an answer, C28), with blocks above 1384 bytes. Packet buffers made by create_max_buffer: C90."},
 {"property": "C92", "status": "proved", "theorems": ["Tftp.c92_files", "Tftp.c92_authorized", "Tftp.c92_too_many", "Tftp.c92_recorded", "Tftp.c92_forgotten", "Tftp.c92_private"], "note": "c92_too_many and c92_forgotten show what the limits mean for a user: the 129th authorized key is dropped without a message, and a server with a long name stays unknown however often its key is recorded. As in C34/C35 the file is its contents (no read errors)."},
 {"property": "C93", "status": "proved", "theorems": ["Tftp.c93_normalize", "Tftp.c93_short", "Tftp.c93_cut", "Tftp.c93_components", "Tftp.c93_writer_contained", "Tftp.c93_reader", "Tftp.c93_same_file", "Tftp.c93_wrong_file", "Tftp.c93_unreadable", "Tftp.c93_back"], "note": "c93_wrong_file, c93_unreadable and c93_back are concrete cases: a name of 150 bytes opens (and an upload empties) the file of another name, a stored file whose full path is longer than 150 bytes cannot be downloaded, and the removal can turn the last component into `..`. As in C20 a trailing slash is ignored by the model's paths; real systems refuse to open a file by such a name."},
 {"property": "C94", "status": "proved", "theorems": ["Tftp.c94_forward", "Tftp.c94_cause", "Tftp.c94_purge", "Tftp.c94_turn", "Tftp.c94_set_back"], "note": "c94_set_back: the binary passes the wall clock, so setting it back by one microsecond after a request ends the server (finding). The timer of the loop itself (single_thread.rs:149) and the client's timers are not in the statement; they use the same subtraction."},
 {"property": "C95", "status": "proved", "theorems": ["Tftp.c95_nonces", "Tftp.c95_files", "Tftp.c95_at_most"], "note": "That prefixes of different files differ is up to the random generator."},
 {"property": "C96", "status": "proved", "theorems": ["Tftp.c96_forward", "Tftp.c96_cause", "Tftp.c96_download", "Tftp.c96_query", "Tftp.c96_upload", "Tftp.Toy.c96_complete_download_lost", "Tftp.Toy.c96_upload_lost"], "note": "The statement includes the finding (c96_complete_download_lost): a complete download is lost if the clock was set back. Whether the rate control looks at its timer for a block is left open (an input)."},
 {"property": "C97", "status": "proved", "theorems": ["Tftp.c97_bounds", "Tftp.c97_prompt", "Tftp.c97_sleeps", "Tftp.c97_quiet", "Tftp.c97_exact", "Tftp.c97_seen"], "note": "The wait is what recv_from is asked to wait at most; that the socket waits that long is up to the operating system. A datagram of a stranger ends the wait at once (c97_sleeps covers these rounds). c97_seen ties the rounds to the iterations of the client's model."},
 {"property": "C98", "status": "proved", "theorems": ["Tftp.c98_run", "Tftp.c98_genuine", "Tftp.c98_measured", "Tftp.c98_once", "Tftp.c98_phantom", "Tftp.Toy.c98_phantom_run", "Tftp.c98_packets", "Tftp.c98_acks", "Tftp.c98_window", "Tftp.c98_zero_restarts"], "note": "c98_run: for whole runs of the client's model; the others for all histories of calls. The statement excludes the block number 0, for which it is false of the code: whenever no block is measured, an acknowledgement of block 0 gives a sample, the time since the last measurement began (c98_phantom; in a run of the client: c98_phantom_run). c98_packets and c98_acks tie what is handed out and confirmed to datagrams. c98_window: which blocks are measured, for the first 55535 (after that the block mapper decides, see C05). c98_zero_restarts: blocks with number 0 are measured from their last sending."}
]}

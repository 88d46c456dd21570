import Verif.ReaderApi
import Verif.Writer
import Verif.Negotiate
import Verif.KeyFiles
import Verif.MapProps
import Verif.Stream
import Verif.Blocking
import Verif.Fs
import Verif.Rates
import Verif.CryptoProps
import Verif.Toy
/-
The unit tests of the repository, run against the model by the kernel. These are tests of the model, not proofs about
the code: each `example` takes the inputs and the asserted outputs of one `#[test]` (cited) and checks that the model's
functions give the same outputs. They are evidence that the definitions the theorems are about describe the same
functions as the Rust code does, since the Rust code is expected to pass the very same assertions.

Not transcribed: tests of randomness or of the real ciphers' bytes, of sizes of types, of wall clock durations and sockets
(src/flow_control.rs `measure_rtt`, std-binary/src/socket.rs), of the build without `alloc`, and the floating point functions.
The transfers of std-binary/src/main.rs:212-330 have their counterparts in the runs of ToyEnd.lean and ToyFull.lean.
-/
namespace Tftp.RepoTests
open Tftp

/-! ### src/packet.rs:569-860 -/

/-- Which packet was decoded, if any. -/
def kindOf (b : Bytes) : Option PacketType := match Packet.fromBytes b with
  | .ok p => some p.type
  | .error _ => none

/-- `packet.to_bytes()` is `e`, and `packet.to_buffer(&mut [0; 100])` writes `e` at the front. -/
def writes (p : Packet) (e : Bytes) : Bool :=
  p.toBytes == e && match p.toBuffer (List.replicate 100 0) with
    | some (b, n) => b.take e.length == e && n == e.length
    | none => false

/-- src/packet.rs:570-609 `test_read`. -/
example :
    kindOf (ascii "\x00\x01foobar.txt\x00octet\x00") = some .read ∧
    kindOf (ascii "\x00\x01foobar.txtoctet\x00") = none ∧
    kindOf (ascii "\x00\x01foobar.txt\x00octet") = none ∧
    kindOf (ascii "\x00\x01foobar.txtoctet") = none ∧
    kindOf (ascii "\x00\x01foobar.txt\x00octet\x00blksize\x001252\x00") = some .read ∧
    kindOf (ascii "\x00\x01foobar.txt\x00octet\x00blksize\x001252\x00tsize\x002000\x00timeout\x001\x00windowsize\x008\x00") = some .read ∧
    kindOf (ascii "\x00\x01foobar.txt\x00octet\x00blksize\x001252\x00tsize\x002000\x00timeout\x00") = none ∧
    writes (.read ⟨ascii "foobar.txt", Exts.empty⟩) (ascii "\x00\x01foobar.txt\x00octet\x00") = true := by decide +kernel

/-- src/packet.rs:611-643 `test_write`. -/
example :
    kindOf (ascii "\x00\x02foobar.txt\x00octet\x00") = some .write ∧
    kindOf (ascii "\x00\x02foobar.txtoctet\x00") = none ∧
    kindOf (ascii "\x00\x02foobar.txt\x00octet") = none ∧
    kindOf (ascii "\x00\x02foobar.txtoctet") = none ∧
    writes (.write ⟨ascii "foobar.txt", Exts.empty⟩) (ascii "\x00\x02foobar.txt\x00octet\x00") = true := by decide +kernel

/-- src/packet.rs:645-677 `test_data`. -/
example :
    kindOf [0, 3, 0, 1] = some .data ∧ kindOf [0, 3, 0, 1, 0x33, 0x55] = some .data ∧ kindOf [0, 3, 0] = none ∧
    kindOf [0, 3] = none ∧ kindOf [] = none ∧ writes (.data 1 [0x30, 0x31]) [0, 3, 0, 1, 0x30, 0x31] = true := by decide +kernel

/-- src/packet.rs:679-706 `test_ack`. -/
example :
    kindOf [0, 4, 0, 1] = some .ack ∧ kindOf [0, 4, 0] = none ∧ kindOf [0, 4] = none ∧ kindOf [] = none ∧
    writes (.ack 1) [0, 4, 0, 1] = true := by decide +kernel

/-- The long message of `test_error`; the line break in the source is part of the literal. -/
def longMessage : Bytes :=
  ascii "File not found File not found File not found File not found File not found File not found File
             not found File not found File not found File not found File not found File not found"

/-- src/packet.rs:708-763 `test_error` (`alloc` build). -/
example :
    kindOf (ascii "\x00\x05\x00\x01File not found\x00") = some .error ∧
    kindOf ([0, 5, 0, 1] ++ longMessage ++ [0]) = some .error ∧
    kindOf (ascii "\x00\x05\x00\x09File not found\x00") = none ∧
    kindOf (ascii "\x00\x05File not found\x00") = none ∧
    kindOf (ascii "\x00\x05\x00\x01File not found") = none ∧
    (match Packet.fromBytes (ascii "\x00\x05\x00\x01Testing long meesage where file is not found\x00") with
      | .ok (.error c m) => c == .fileNotFound && m == ascii "Testing long meesage where file is not found"
      | _ => false) = true ∧
    (Packet.error .fileNotFound (ascii "File not found")).toBytes = ascii "\x00\x05\x00\x01File not found\x00" ∧
    writes (.error .diskFull (ascii "Unable to write file some-file-to-test.bin"))
      (ascii "\x00\x05\x00\x03Unable to write file some-file-to-test.bin\x00") = true := by decide +kernel

/-- src/packet.rs:765-828 `test_optional_ack`. -/
example :
    kindOf (ascii "\x00\x06blksize\x001252\x00") = some .optionalAck ∧
    kindOf (ascii "\x00\x06blksize\x001252\x00timeout\x001252\x00tsize\x001252\x00") = some .optionalAck ∧
    kindOf (ascii "\x00\x06blks\x001252\x00") = some .optionalAck ∧
    kindOf (ascii "\x00\x06blksize\x001252\x00unknown\x001252\x00tsize\x001252\x00") = some .optionalAck ∧
    kindOf (ascii "\x00\x06blksize\x001252\x00unknown\x001252\x00tsize\x001252") = none ∧
    kindOf (ascii "\x00\x06blksize\x001252\x00unknown\x001252\x00tsize\x00") = none ∧
    writes (.optionalAck ((Exts.empty.insert .transferSize (decimal 123)).insert .timeout (decimal 123)))
      (ascii "\x00\x06timeout\x00123\x00tsize\x00123\x00") = true ∧
    writes (.optionalAck Exts.empty) [0, 6] = true := by decide +kernel

/-- src/packet.rs:830-845 `test_unknown_extensions_ignored`. -/
example :
    (match Exts.fromBytes (ascii "BLKSIZE\x001252\x00unknown\x001252\x00TSIZE\x0012\x00") with
      | .ok e => e.size == 2 && e .blockSize == some (ascii "1252") && e .transferSize == some (ascii "12")
      | .error _ => false) = true := by decide +kernel

/-- src/packet.rs:855-859 `test_error_code`. -/
example : ErrorCode.ofRepr 1 = some .fileNotFound ∧ ErrorCode.fileNotFound.repr = 1 := by decide +kernel

/-! ### src/buffer.rs:160-256 -/

/-- src/buffer.rs:204-220 `test_rslice_to_array`, 222-236 `test_rslice_to_array_ref`, 238-250 `test_slice_at_end`,
`test_write_bytes`. -/
example :
    rsliceToArray 3 [1, 2, 3, 4, 5] 0 = some [3, 4, 5] ∧ rsliceToArray 5 [1, 2, 3, 4, 5] 0 = some [1, 2, 3, 4, 5] ∧
    rsliceToArray 0 [1, 2, 3, 4, 5] 0 = some [] ∧ rsliceToArray 6 [1, 2, 3, 4, 5] 0 = none ∧
    sliceAtEnd [1, 2, 3, 4, 5] 2 = some [1, 2, 3] ∧ sliceAtEnd [1, 2, 3, 4, 5] 0 = some [1, 2, 3, 4, 5] ∧
    sliceAtEnd [1, 2, 3, 4, 5] 6 = none ∧
    writeBytes [1, 2, 3, 4, 5] [6, 7, 8] 2 = some ([1, 2, 6, 7, 8], 5) ∧
    writeBytes [1, 2, 6, 7, 8] [6, 7, 8] 3 = none ∧ writeBytes [1, 2, 6, 7, 8] [6, 7, 8] 6 = none := by decide +kernel

/-! ### src/server/validation.rs:105-140 -/

/-- src/server/validation.rs:106-129 `test_normalize_name`. -/
example :
    ∀ p ∈ [("a", "a"), ("a", "./a"), ("a", "/a"), ("root/a", "root/a"), ("root/a", "/root/a"), ("root/a/b", "root/a/../b"),
      ("a", "../../a"), ("b", "../b/../."), (".b.", "./.b."), (" s", "/ / / / s"), ("s", "//s"), ("s", "///s")],
      normalizeName (ascii p.2) = some (ascii p.1) := by decide +kernel

/-- src/server/validation.rs:131-141 `test_normalize_name_failures`. -/
example : ∀ p ∈ ["", ".", "/../.", "/////"], normalizeName (ascii p) = none := by decide +kernel

/-! ### src/block_mapper.rs:67-108 -/

/-- A run of `index` calls: the answers. -/
def indices : Mapper → List Nat → List Nat
  | _, [] => []
  | m, b :: bs => (m.index b).2 :: indices (m.index b).1 bs

/-- src/block_mapper.rs:72-107 `test_block_mapper`: the `index` calls in order, and the `block` calls (which have no effect). -/
example :
    indices Mapper.new [0, 10000, 65535, 65533, 0, 2, 10000, 10001, 65535 - 9999, 0, 1] =
      [0, 10000, 65535, 65533, 65536, 65538, 65535 + 10001, 65535 + 10002, 65535 + 65535 - 9998, 2 * 65535 + 2, 2 * 65535 + 3] ∧
    blockOf 0 = 0 ∧ blockOf 10000 = 10000 ∧ blockOf 2 = 2 ∧ blockOf 65535 = 65535 ∧ blockOf 65536 = 0 ∧
    blockOf (65535 + 10000) = 9999 ∧ blockOf (2 * 65535) = 65534 ∧ blockOf (2 * 65535 + 1) = 65535 ∧ blockOf (2 * 65535 + 2) = 0 ∧
    blockOf (2 * 65535 + 2000) = 1998 ∧ blockOf (2 * 65535 + 9999) = 9997 := by decide +kernel

/-! ### src/encryption.rs, src/encrypted_packet.rs, src/key_management.rs -/

/-- src/encryption.rs:471-504 `test_apply_bit_padding` (`alloc` build), 506-524 `test_remove_bit_padding`. -/
example :
    applyPadding [] 5 = none ∧ applyPadding [255] 5 = some [255, 0, 0, 0, 0, 0] ∧
    applyPadding [0] 5 = some [0, 255, 255, 255, 255, 255] ∧ applyPadding [0] 1 = some [0, 255] ∧
    applyPadding [0, 1, 2, 3, 0] 0 = none ∧ (applyPadding [0, 1, 2, 3, 0] 2000).isSome = true ∧
    removePadding [] = none ∧ removePadding [2, 0, 0, 0, 0] = some [2] ∧ removePadding [1, 255, 255, 255, 255] = some [1] := by
  decide +kernel

/-- The bytes of `test_encode_public_key`. -/
def pub : Bytes := [1, 3, 4, 5, 7, 3, 3, 3, 3, 2, 99, 233, 200, 1, 3, 4, 5, 7, 3, 3, 3, 3, 2, 99, 233, 200, 17, 22, 29, 93, 32, 1]

/-- src/encryption.rs:545-556 `test_encode_public_key`, 558-570 `test_decode_public_key`, 572-583 `test_decode_signature`,
585-597 `test_decode_nonce`. -/
example :
    (encodeKey pub).length = 44 ∧ decodeKey 32 (encodeKey pub) = some pub ∧
    (decodeKey 32 (ascii "4vF5bMfogaX8gd4U6mlefIaZYmJlUK7zrl9Z20iQa88=")).isSome = true ∧
    (decodeKey 32 (ascii "qTuwoxbFqBB96g==")).isSome = true ∧ decodeKey 32 (ascii "amigo%") = none ∧
    decodeKey 32 (ascii "0IYTomuQrvWzX0VG8Ak2JS7FkXCuUOd2y3ehCQxWqc+7") = none ∧
    (decodeSignature (ascii "ekX+yBeNuIzuUrnu32rpGw7LPfU6SqCVYQnvkNS5K/0C5rBRPXAo3hcbe17DWNy1xfZimwlG17/n2FCph1SHDQ==")).isSome = true ∧
    decodeSignature (ascii "amigo%") = none ∧
    (decodeKey 24 (ascii "tgcjcdnaLMP6HgCy0VxQE4HGJI+nVhPT")).isSome = true ∧
    (decodeKey 24 (ascii "qTuwoxbFqBB96g==")).isSome = true ∧
    decodeKey 24 (ascii "4vF5bMfogaX8gd4U6mlefIaZYmJlUK7zrl9Z20iQa88=") = none ∧ decodeKey 24 (ascii "amigo%") = none := by
  decide +kernel

/-- src/encryption.rs:526-543 `test_encrypt_decrypt`, with any cipher: the length, and the round trip. -/
example (A : Aead) (nonce : Bytes) (hn : nonce.length = 24) :
    ∃ c, encrypt A nonce [2, 32, 32, 2, 1] 0 = .ok c ∧ c.length = 5 + 16 + 24 ∧ decrypt A c 0 = .ok [2, 32, 32, 2, 1] := by
  have h1 := A.enc_length nonce [2, 32, 32, 2, 1]
  have h2 := A.tag_length nonce [2, 32, 32, 2, 1]
  have h3 := A.dec_enc nonce [2, 32, 32, 2, 1]
  refine ⟨_, rfl, ?_, ?_⟩
  · simp only [List.take_zero, List.drop_zero, List.nil_append, List.length_append, h1, h2, hn]; rfl
  · have := decrypt_layout A [] (A.enc nonce [2, 32, 32, 2, 1]).1 _ nonce h2 hn
    rw [h3] at this
    exact this

/-- src/encrypted_packet.rs:183-206 `test_initial_from_bytes`. -/
example :
    parseInitial ([1, 1, 1, 1, 1, 1, 1] ++ List.replicate 16 2 ++ List.replicate 24 2 ++ List.replicate 32 2) =
      some ([1, 1, 1, 1, 1, 1, 1] ++ List.replicate 16 2, List.replicate 24 2, List.replicate 32 2) := by decide +kernel

/-- src/key_management.rs:71-82 `test_read_authorized_keys`, 84-95 `test_read_authorized_keys_error` (taking the keys of the
files for points of the curve). -/
example :
    ((readAuthorizedKeys (fun _ => true)
      (ascii "\n#Hello world\n7n3Y/T6Z/gPQjNNuKiGuPgK2keHbJb4fvq2c6NAvC9Q=\nvyg/gG9yPlX4YS0kSQ9T1cqXWk2grW+kW+Fh1fhZlo8=")).map
        List.length) = some 2 ∧
    readAuthorizedKeys (fun _ => true)
      (ascii "\nHello world\nDRKEZZt4qRdz7gp14XNyvGsFT95Fo/oFj5A+b35s8TI=\n/RtKjvdVy3lnPjPwTyXNvMsWBIFjfaG3kvOQ3VOMItg=") = none := by
  decide +kernel

/-- The file of `test_append_to_known_hosts`. -/
def hosts : Bytes :=
  ascii "\n#Hello world\nserver DRKEZZt4qRdz7gp14XNyvGsFT95Fo/oFj5A+b35s8TI=\na b /RtKjvdVy3lnPjPwTyXNvMsWBIFjfaG3kvOQ3VOMItg="

/-- src/key_management.rs:97-125 `test_append_to_known_hosts`. -/
example :
    (match decodeVerifyingKey (fun _ => true) (ascii "DRKEZZt4qRdz7gp14XNyvGsFT95Fo/oFj5A+b35s8TI=") with
      | some k =>
        getKnownHost (fun _ => true) hosts (ascii "server") == .found k &&
        getKnownHost (fun _ => true) (appendKnownHost hosts (ascii "new-server") k) (ascii "new-server") == .found k &&
        getKnownHost (fun _ => true) (appendKnownHost hosts (ascii "new-server") k) (ascii "a") == .error
      | none => false) = true := by decide +kernel

/-! ### src/map.rs:231-260 -/

/-- src/map.rs:235-266 `test_basic_ops`. -/
def basicOps : Bool :=
  let m : FMap Nat Nat := []
  let m := (m.insert 3 1 1).1
  let m := (m.insert 3 2 2).1
  let m := (m.insert 3 3 3).1
  let full := m.length == 3 && !m.isEmpty && (m.remove 4).2 == none && m.contains 3 && (m.remove 3).2 == some 3
  let m := (m.remove 4).1
  let m := (m.remove 3).1
  let less := !m.contains 3 && m.length == 2
  let again := match (m.insert 3 1 2).2 with | .ok (some v) => v == 1 | _ => false
  let m := (m.insert 3 1 2).1
  let l := FMap.fill 100 [(1, 1), (2, 2), (3, 3)]
  full && less && again && m.length == 2 && m.get 1 == some 2 && m == [(2, 2), (1, 2)] &&
    l.length == 3 && (l.retain fun k (_ : Nat) => k != 2).length == 2

example : basicOps = true := by decide +kernel

/-! ### Readers -/

/-- The statements of the reader tests. `blk retry n data`: `next(retry)` gives block `n` (and the payload begins with `data`);
`some' retry`: it gives a block; `none'`, `err`: it gives none, an I/O error (the file fails); `free b n`: `free_block(b)` is `n`;
`free' b`: its result is not looked at; `fin x`: `is_finished` is `x`. -/
inductive St
  | blk (retry : Bool) (n : Nat) (data : Bytes)
  | some' (retry : Bool)
  | none' (retry : Bool)
  | err (retry : Bool)
  | free (b n : Nat)
  | free' (b : Nat)
  | fin (x : Bool)

/-- All the statements hold, in order; `cap` is the size of the buffer. -/
def check (cap : Nat) : Reader → List St → Bool
  | _, [] => true
  | r, .blk retry n data :: l => match r.next retry false cap with
    | (r, .block b) => b.block == n && b.data.take data.length == data && check cap r l
    | _ => false
  | r, .some' retry :: l => match r.next retry false cap with
    | (r, .block _) => check cap r l
    | _ => false
  | r, .none' retry :: l => match r.next retry false cap with
    | (r, .none) => check cap r l
    | _ => false
  | r, .err retry :: l => match r.next retry true cap with
    | (r, .ioErr) => check cap r l
    | _ => false
  | r, .free b n :: l => match r.free b with
    | (r, some k) => k == n && check cap r l
    | _ => false
  | r, .free' b :: l => match r.free b with
    | (r, some _) => check cap r l
    | _ => false
  | r, .fin x :: l => r.isFinished == x && check cap r l

open St

/-- src/readers/single_block_reader.rs:114-134 `test_next_read_and_repeat`. -/
example : check 2 (Reader.new .single [1, 2, 3, 4, 5, 6, 7, 8, 9, 10] 2 1)
    [blk false 1 [1, 2], fin false, none' false, blk true 1 [1, 2], fin false, none' false] = true := by decide +kernel

/-- src/readers/single_block_reader.rs:136-159 `test_read_until_finished`. -/
example : check 100 (Reader.new .single [1, 2, 3] 2 1)
    [some' false, fin false, free 1 2, some' false, fin false, free' 2, none' false, none' true, fin true] = true := by decide +kernel

/-- src/readers/single_block_reader.rs:161-178 `test_free_block_invalid`. -/
example : check 100 (Reader.new .single [1, 2, 3] 2 1)
    [free 1 0, some' false, free 2 0, free 1 2, some' false, free 10 0, free 0 0, fin false, free 2 1, fin true] = true := by decide +kernel

/-- src/readers/single_block_reader.rs:180-197 `test_next_file_size_matches_block_size`. -/
example : check 100 (Reader.new .single [1, 2, 3, 4] 2 1)
    [some' false, free 1 2, some' false, free 2 2, some' false, none' false, free 3 0, fin true] = true := by decide +kernel

/-- The tests of src/readers/multiple_block_reader.rs:191-378 and src/readers/multiple_block_seek_reader.rs:170-365: the two
readers are tested with the same statements, except for the last two of the list, which only the first has. -/
def windowed (k : Kind) : Bool :=
  -- test_next_read_and_repeat
  check 100 (Reader.new k [1, 2, 3, 4, 5, 6, 7, 8, 9, 10] 2 2)
    [blk false 1 [1, 2], fin false, blk false 2 [3, 4], none' false, blk true 1 [1, 2], fin false, blk false 2 [3, 4], none' false] &&
  -- test_read_until_finished
  check 100 (Reader.new k [1, 2, 3, 4, 5, 6, 7, 8, 9] 2 2)
    [some' false, fin false, some' false, fin false, free' 2, some' false, fin false, some' false, fin false, free' 4,
      some' false, fin false, free' 5, fin true] &&
  -- test_next_read_from_released
  check 2 (Reader.new k [1, 2, 3, 4, 5, 6, 7] 2 2)
    [blk false 1 [], free' 1, blk false 2 [3, 4], blk false 3 [5, 6], none' false, blk true 2 [3, 4], fin false, blk false 3 [5, 6],
      none' false] &&
  -- test_next_nothing_to_read
  check 100 (Reader.new k [1, 2, 3] 2 2)
    [some' false, blk false 2 [3], none' false, free' 2, none' false, none' true] &&
  -- test_free_block
  check 100 (Reader.new k [1, 2, 3, 4, 5] 2 2) [some' false, some' false, free 2 4, some' false, free 3 1] &&
  -- test_free_block_while_rereading
  check 100 (Reader.new k [1, 2, 3, 4, 5, 6, 7, 8, 9] 2 4)
    [some' false, some' false, some' false, some' false, some' true, free 4 8, blk false 5 [], free 5 1] &&
  -- test_free_block_invalid
  check 100 (Reader.new k [1, 2, 3, 4, 5] 2 2)
    [free 1 0, some' false, free 2 2, some' false, free 10 2, free 10 0, some' false, free 2 0, fin false, free 3 1, fin true] &&
  -- test_next_file_reading_finished
  check 100 (Reader.new k [1, 2, 3] 2 3) [some' false, some' false, none' false] &&
  -- test_next_file_size_matches_block_size
  check 100 (Reader.new k [1, 2, 3, 4] 2 3) [some' false, some' false, some' false, none' false, free 3 4, fin true]

example : windowed .multi = true := by decide +kernel

example : windowed .seek = true := by decide +kernel

/-- src/readers/multiple_block_reader.rs:380-401 `test_read_is_always_for_new_block`, 403-415 `test_read_failure`. -/
example :
    check 100 (Reader.new .multi [1, 2, 3, 4, 5, 6, 7, 8, 9] 2 4)
      [blk false 1 [], blk false 2 [], free 1 2, blk false 2 [], blk false 3 [], free 3 4, blk false 4 []] = true ∧
    check 100 (Reader.new .multi [] 2 4) [err false, err true, err false] = true := by decide +kernel

/-- src/readers/pool_reader.rs:177-230: a reader of a one byte file in a pool: the pool has one entry while the reader is there and
none afterwards. -/
example :
    (∀ k ∈ [Kind.single, Kind.multi, Kind.seek],
      check 100 (Reader.new k [1] 2 (if k = .single then 1 else 2)) [blk false 1 [], free 1 1, fin true] = true) ∧
    (PoolSt.run 4 [.create ()]).pool.length = 1 ∧ (PoolSt.run 4 [.create (), .drop 0]).pool.length = 0 := by decide +kernel

/-! ### Writers -/

/-- src/writers/single_block_writer.rs:66-112 `test_write_block`. -/
example :
    (Writer.trace Writer.new [⟨0, [1, 2, 3, 4, 5], .all⟩, ⟨1, [1, 2, 3, 4, 5], .all⟩, ⟨1, [1, 2, 3, 4, 5], .all⟩, ⟨3, [1, 2, 3, 4, 5], .all⟩,
      ⟨2, [6, 7, 8, 9, 10], .all⟩]).map (fun x => (x.2.1, x.2.2)) =
    [(.already 0 0, []), (.ok 5 1, [1, 2, 3, 4, 5]), (.already 1 1, [1, 2, 3, 4, 5]), (.expected 1 1, [1, 2, 3, 4, 5]),
      (.ok 5 2, [1, 2, 3, 4, 5, 6, 7, 8, 9, 10])] := by decide +kernel

/-- The outcome of a call of a stream: the length, or the error. -/
def outcome : Except StreamErr Bytes → Except StreamErr Nat
  | .ok b => .ok b.length
  | .error e => .error e

/-- Comparison of outcomes. -/
def same : List (Except StreamErr Nat) → List (Except StreamErr Nat) → Bool
  | [], [] => true
  | .ok a :: l, .ok b :: m => a == b && same l m
  | .error a :: l, .error b :: m => a == b && same l m
  | _, _ => false

/-- The nonce of the stream tests. -/
def streamNonce : Bytes := [1, 3, 4, 5, 7, 3, 3, 3, 3, 2, 99, 233, 200, 1, 3, 4, 5, 7, 3]

/-- The file of the stream reader tests: `(1..200)`. -/
def streamFile : Bytes := (List.range 199).map fun i => UInt8.ofNat (i + 1)

/-- src/readers/encrypted_stream_reader.rs:108-131 `test_read` (lengths, hence any cipher; the toy one here), 133-151
`test_read_invalid`, 153-166 `test_read_failure`. -/
example :
    same (((StreamIn.new streamNonce streamFile).reads Toy.stream 90 [some 90, some 90, some 90, some 90]).2.map outcome)
      [.ok 90, .ok 90, .ok 88, .error .unsupported] = true ∧
    (∀ len ∈ [0, 1, 65535], same [outcome ((StreamIn.new streamNonce streamFile).read Toy.stream len (some len)).2]
      [.error .unsupported] = true) ∧
    same [outcome ((StreamIn.new streamNonce streamFile).read Toy.stream 100 none).2] [.error .io] = true ∧
    ((StreamIn.new streamNonce streamFile).read Toy.stream 100 none).1.header = true := by decide +kernel

/-- What the reader test writes, in the toy cipher: the counterpart of `create_data` of the stream writer tests. -/
def streamData : Bytes :=
  (((StreamIn.new streamNonce streamFile).reads Toy.stream 90 [some 90, some 90, some 90]).2.map fun r => match r with
    | .ok b => b
    | .error _ => []).flatten

/-- src/writers/encrypted_stream_writer.rs:118-146 `test_write`, 148-170 `test_write_invalid`, 172-194
`test_write_invalid_block_size` (without its second write, which only an authenticating cipher refuses),
196-211 `test_write_failure`. -/
example :
    streamData.length = 268 ∧
    same (StreamOut.new.writes Toy.stream [(streamData.take 90, .all), ((streamData.drop 90).take 90, .all), (streamData.drop 180, .all),
      (streamData, .all), (streamData.take 90, .all)]).2
      [.ok 90, .ok 90, .ok 88, .error .invalidData, .error .unsupported] = true ∧
    (StreamOut.new.writes Toy.stream [(streamData.take 90, .all), ((streamData.drop 90).take 90, .all), (streamData.drop 180, .all)]).1.out
      = streamFile ∧
    same (StreamOut.new.writes Toy.stream [([], .all), (streamData, .all), ((streamData.drop 3).take 1, .all), (streamData.take 200, .all)]).2
      [.error .invalidData, .error .invalidData, .error .invalidData, .error .invalidData] = true ∧
    same (StreamOut.new.writes Toy.stream [(streamData.take 90, .all), (streamData, .all)]).2 [.ok 90, .error .invalidData] = true ∧
    same (StreamOut.new.writes Toy.stream [(streamData.take 90, .err)]).2 [.error .io] = true ∧
    (StreamOut.new.writes Toy.stream [(streamData.take 90, .err)]).1.header = true := by decide +kernel

/-! ### Options -/

/-- src/server/extensions.rs:314-331 `create_config`. -/
def srvConfig : SrvCfg Toy.sig := ⟨101, 8, 10000, 1, false, none, none, false⟩

/-- Number of extensions and the options of an answer. -/
def parsed (ce : Exts) : Option (Nat × Opts) := match srvParse srvConfig (List.replicate 32 7) ce Opts.default with
  | .ok (e, o, _) => some (e.size, o)
  | .error _ => none

/-- src/server/extensions.rs:243-264 `test_parse_extensions`, 266-286 `test_parse_invalid_extensions`, 288-312
`test_parse_extensions_encryption`. -/
example :
    (parsed Exts.empty).map (·.1) = some 0 ∧
    parsed ((((Exts.empty.insert .blockSize (ascii "512")).insert .transferSize (ascii "6")).insert .timeout (ascii "7")).insert .windowSize
      (ascii "8")) = some (4, ⟨101, 7000, some 6, .none, 8⟩) ∧
    (match parsed ((((Exts.empty.insert .blockSize (ascii "1")).insert .transferSize (ascii "a")).insert .timeout (ascii "0")).insert
      .windowSize (ascii "0")) with
      | some (n, o) => n == 0 && o.blockSize != 1 && o.fileSize != some 0 && o.retry != 0
      | none => false) = true ∧
    (parsed ((Exts.empty.insert .sessionPublicKey (ascii "Yhk58FaJO5dnct6VgrfRXtjqd9m3h2JHrD/Jecov2wY=")).insert .encryptionLevel
      (ascii "none"))).map (fun x => (x.1, x.2.level)) = some (0, .none) := by decide +kernel

/-- The keys of a client without an authorization key, and of one with. -/
def noKey : InitialKeys Toy.sig := ⟨List.replicate 32 5, none⟩
def withKey : InitialKeys Toy.sig := ⟨List.replicate 32 5, some Toy.key⟩

/-- The options of the client tests. -/
def cliOpts : Opts := ⟨500, 7000, some 0, .none, 8⟩

/-- The answer of the server in `test_validate_extensions`. -/
def srvExts : Exts :=
  (((Exts.empty.insert .blockSize (ascii "101")).insert .transferSize (ascii "6")).insert .timeout (ascii "6")).insert .windowSize (ascii "2")

/-- src/client/extensions.rs:254-272 `test_validate_extensions`, 274-287 `test_validate_extensions_unknown_server_extensions`, 289-318
`test_create_options`, 335-365 `test_create_options_encryption`. -/
example :
    (createExtensions cliOpts noKey).size = 4 ∧ validateExtensions srvExts (createExtensions cliOpts noKey) = true ∧
    validateExtensions srvExts (Exts.empty.insert .blockSize (ascii "101")) = false ∧
    createExtensions cliOpts noKey .blockSize = some (ascii "500") ∧ createExtensions cliOpts noKey .timeout = some (ascii "7") ∧
    createExtensions cliOpts noKey .transferSize = some (ascii "0") ∧ createExtensions cliOpts noKey .windowSize = some (ascii "8") ∧
    (createExtensions { cliOpts with level := .optionalProtocol } withKey).size = 8 ∧
    createExtensions { cliOpts with level := .optionalProtocol } withKey .encryptionLevel = some (ascii "optional-protocol") ∧
    (createExtensions { cliOpts with level := .optionalProtocol } withKey .sessionPublicKey).isSome = true ∧
    (createExtensions { cliOpts with level := .optionalProtocol } withKey .authPublicKey).isSome = true ∧
    (createExtensions { cliOpts with level := .optionalProtocol } withKey .signature).isSome = true := by decide +kernel

/-- The extension named in the error of the client's `parse_extensions`. -/
def rejected (se : Exts) (o : Opts) : Option Extension := match cliParse Toy.sig se o with
  | .error (.invalidExtension e) => some e
  | _ => none

/-- src/client/extensions.rs:367-392 `test_parse_extensions`, 394-459 `test_parse_extensions_disallowed_…`,
`test_parse_extensions_invalid_server_value`. -/
example :
    (match cliParse Toy.sig ((((Exts.empty.insert .blockSize (ascii "512")).insert .transferSize (ascii "6")).insert .timeout (ascii "6")).insert
      .windowSize (ascii "2")) ⟨512, 7000, some 0, .none, 8⟩ with
      | .ok (o, _) => o == ⟨512, 6000, some 6, .none, 2⟩
      | .error _ => false) = true ∧
    rejected (Exts.empty.insert .blockSize (ascii "0")) Opts.default = some .blockSize ∧
    rejected (Exts.empty.insert .windowSize (ascii "2")) Opts.default = some .windowSize ∧
    rejected (Exts.empty.insert .transferSize (ascii "2")) { Opts.default with fileSize := some 6 } = some .transferSize ∧
    rejected (Exts.empty.insert .timeout (ascii "0")) { Opts.default with retry := 1000 } = some .timeout ∧
    rejected (Exts.empty.insert .blockSize (ascii "any")) Opts.default = some .blockSize := by decide +kernel

/-- src/server/connection_builder.rs:466-511 `test_block_reader_window_size_1`, `test_block_reader_window_size_4` where there is room in
the pools (as always with `alloc`), with the `seek` feature. -/
example :
    ({ Toy.srv with preferSeek := true }).kind 1 = .seek ∧ ({ Toy.srv with preferSeek := false }).kind 1 = .single ∧
    ({ Toy.srv with preferSeek := true }).kind 4 = .seek ∧ ({ Toy.srv with preferSeek := false }).kind 4 = .multi := by decide +kernel

/-! ### std-binary -/

/-- std-binary/src/io.rs:241-256 `test_validate_path`. -/
example :
    ∀ t ∈ [("filename", 0, true), ("filename", 1, true), ("dir/file", 0, false), ("dir/file", 1, true), ("/file", 1, true), ("", 1, true),
      ("../../a", 1, false), ("../../a", 3, true)], validatePath (PPath.parse (ascii t.1)) t.2.1 = t.2.2 := by decide +kernel

/-- The results of the calls of the blocking reader: `none` for `WouldBlock`. -/
def blkAnswers (l : List BlkEv) : List (Option Bytes) := ((Blk.new []).run l).2.map fun r => match r with
  | .ok b => some b
  | _ => none

/-- std-binary/src/blocking_reader.rs:103-152 `test_blocking_read`. -/
example :
    blkAnswers [.read 2 2, .load, .append [1], .read 2 2, .load, .append [2], .read 2 2, .append [3], .append [4], .append [5], .read 2 2,
      .read 2 2, .load, .finish, .read 2 2, .load] = [none, none, some [1, 2], some [3, 4], none, some [5]] := by decide +kernel

/-! ### src/flow_control.rs -/

/-- The rates of `test_transmit_rate_doubles` (src/flow_control.rs:369-450), where the floating point part is `5 *` the acknowledged
bytes (200 ms) and there is no loss. -/
def rates (l : List (List Nat)) : List (Option Nat) :=
  (l.foldl (fun (acc : Option Rate × List (Option Nat)) acks =>
    let r := acc.1.bind fun r => (Rate.run 512 r (acks.map .acked ++ [.calculate ⟨5 * acks.sum, 0, false, 0⟩]))
    (r, acc.2 ++ [r.map (·.allowed)])) (some Rate.new, [])).2

/-- src/flow_control.rs:319-367 `test_transmit_rate` and 369-450 `test_transmit_rate_doubles`. -/
example :
    rates [[8000], [8000], [8000], [8000]] = [some 4294967295, some 4294967295, some 80000, some 80000] ∧
    rates [[512], [512], [512], [512, 512], [512, 512, 512, 512], [], []] =
      [some 4294967295, some 4294967295, some 5120, some 10240, some 20480, some 2048, some 2048] := by decide +kernel

end Tftp.RepoTests

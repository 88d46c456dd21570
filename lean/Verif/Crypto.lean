import Verif.Packet
import Verif.Text
import Verif.Negotiate
/-
Packet encryption: src/encryption.rs (padding, `Encryptor`), src/encrypted_packet.rs, and the parts of
src/client/encryption_socket.rs and src/server/connection.rs which use them.

The cipher (XChaCha20-Poly1305 with a given key), the nonce and the key exchange are parameters; only the usual laws
are assumed. The `alloc` feature is modelled: buffers can grow. Functions which can panic return `Out`.
-/
namespace Tftp

/-- Result of a Rust function which may fail or panic. -/
inductive Out (α : Type) | ok (a : α) | err | panic
deriving DecidableEq

/-- An AEAD cipher with its key, detached tag, empty associated data (`encrypt_in_place_detached`,
`decrypt_in_place_detached`). -/
structure Aead where
  enc : (nonce plain : Bytes) → Bytes × Bytes
  dec : (nonce cipher tag : Bytes) → Option Bytes
  enc_length : ∀ n p, (enc n p).1.length = p.length
  tag_length : ∀ n p, (enc n p).2.length = 16
  dec_enc : ∀ n p, dec n (enc n p).1 (enc n p).2 = some p

/-- src/encryption.rs:270-287 `Encryptor::encrypt(buffer, from_position)` with the generated nonce. -/
def encrypt (A : Aead) (nonce b : Bytes) (from' : Nat) : Out Bytes :=
  if b.length < from' then .panic
  else
    let c := A.enc nonce (b.drop from')
    .ok (b.take from' ++ c.1 ++ c.2 ++ nonce)

/-- src/encryption.rs:289-310 `Encryptor::decrypt(buffer, from_position)`. `split_at_mut` panics if nothing is left of
the header. -/
def decrypt (A : Aead) (b : Bytes) (from' : Nat) : Out Bytes :=
  match rsliceToArray 24 b 0, rsliceToArray 16 b 24 with
  | some nonce, some tag =>
    let body := b.take (b.length - 24 - 16)
    if body.length < from' then .panic
    else match A.dec nonce (body.drop from') tag with
      | some p => .ok (body.take from' ++ p)
      | none => .err
  | _, _ => .err

/-- src/encryption.rs:402-420 `apply_bit_padding` (`alloc`: `push` never fails). `trailing_ones() > 0` is oddness. -/
def applyPadding (b : Bytes) (expected : Nat) : Option Bytes :=
  match b.getLast? with
  | none => none
  | some last =>
    if expected < b.length then none
    else
      let byte : UInt8 := if last.toNat % 2 = 1 then 0 else 255
      some (b ++ List.replicate (expected - b.length + 1) byte)

/-- Number of trailing bytes equal to `x` (the loop of src/encryption.rs:434-440). -/
def trailing (x : UInt8) : Bytes → Nat
  | [] => 0
  | c :: r => if (c :: r).all (· = x) then r.length + 1 else trailing x r

/-- src/encryption.rs:423-443 `remove_bit_padding`. -/
def removePadding (b : Bytes) : Option Bytes :=
  match b.getLast? with
  | none => none
  | some last =>
    if last = 255 then some (b.take (b.length - trailing 255 b))
    else if last = 0 then some (b.take (b.length - trailing 0 b))
    else none

/-- src/encrypted_packet.rs:158-166 `EncryptedPacket::encrypt`. -/
def sealPacket (A : Aead) (nonce b : Bytes) (expected : Nat) : Out Bytes :=
  match applyPadding b expected with
  | none => .err
  | some p => encrypt A nonce p 0

/-- src/encrypted_packet.rs:168-175 `EncryptedPacket::decrypt`. -/
def openPacket (A : Aead) (b : Bytes) : Out Bytes :=
  match decrypt A b 0 with
  | .ok p => match removePadding p with
    | some r => .ok r
    | none => .err
  | .err => .err
  | .panic => .panic

/-- src/encrypted_packet.rs:134-140 `EncryptedDataPacket::encrypt`. -/
def sealData (A : Aead) (nonce b : Bytes) : Out Bytes := encrypt A nonce b 4

/-- src/encrypted_packet.rs:142-148 `EncryptedDataPacket::decrypt`. -/
def openData (A : Aead) (b : Bytes) : Out Bytes := decrypt A b 4

/-- src/encrypted_packet.rs:86-106 `InitialPacket::encrypt`; `pub` is the client's handshake public key. -/
def sealInitial (A : Aead) (nonce pub b : Bytes) (expected : Nat) : Out Bytes :=
  if expected < 1 + 16 + 32 + 24 then .err
  else match applyPadding b (expected - (1 + 16 + 32 + 24)) with
    | none => .err
    | some p => match encrypt A nonce p 0 with
      | .ok c => .ok (c ++ pub)
      | .err => .err
      | .panic => .panic

/-- src/encrypted_packet.rs:64-84 `InitialPacket::from_bytes`: ciphertext with tag, nonce, public key. -/
def parseInitial (b : Bytes) : Option (Bytes × Bytes × Bytes) :=
  match rsliceToArray 32 b 0, rsliceToArray 24 b 32, sliceAtEnd b (32 + 24) with
  | some pub, some nonce, some ct => match rsliceToArray 16 ct 0 with
    | some _ => some (ct, nonce, pub)
    | none => none
  | _, _, _ => none

/-- src/encrypted_packet.rs:108-123 `InitialPacket::decrypt`. -/
def openInitial (A : Aead) (ct nonce : Bytes) : Out Bytes := openPacket A (ct ++ nonce)

/-- The opcode as `PacketType::from_bytes` sees it (src/packet.rs:163-166). -/
def packetType (b : Bytes) : Option PacketType := (readU16 b).bind fun op => PacketType.ofRepr op.toNat

/-- What an established connection does to an outgoing datagram: src/server/connection.rs:127-159 `send_bytes` and
src/client/encryption_socket.rs:93-134 `send_to` (after the request). `size` is the padded packet size
(`block_size_with_encryption() + 4`). -/
def protect (A : Aead) (level : Level) (size : Nat) (nonce b : Bytes) : Out Bytes :=
  match level with
  | .protocol | .full => sealPacket A nonce b size
  | .data => if packetType b = some .data then sealData A nonce b else .ok b
  | .optionalData | .optionalProtocol | .none => .ok b

/-- ... and to an incoming one: src/server/connection.rs:70-106 `decrypt_packet`, src/client/encryption_socket.rs:65-91
`recv_from`. -/
def unprotect (A : Aead) (level : Level) (b : Bytes) : Out Bytes :=
  match level with
  | .protocol | .full => openPacket A b
  | .data => if packetType b = some .data then openData A b else .ok b
  | .optionalData | .optionalProtocol | .none => .ok b

end Tftp

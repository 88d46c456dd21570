import Verif.Bytes
/-
Model of /repo/src/packet.rs : TFTP packets, their encoder and decoder.

Simplifications: the `alloc` feature (default) is modelled, i.e. strings are unbounded and
`PacketExtensions` is a `BTreeMap` (iterated in the order of the `Extension` enum).
A map over the eight extension keys is modelled as a function `Extension → Option Bytes`.
Rust `str` is modelled as its UTF-8 bytes.
-/
namespace Tftp

/-- src/packet.rs:138-147 `PacketType` (discriminants 1..6). -/
inductive PacketType | read | write | data | ack | error | optionalAck
deriving DecidableEq, Repr

/-- src/packet.rs:147-157 `PacketType::from_repr`. -/
def PacketType.ofRepr (s : Nat) : Option PacketType :=
  match s with
  | 1 => some .read
  | 2 => some .write
  | 3 => some .data
  | 4 => some .ack
  | 5 => some .error
  | 6 => some .optionalAck
  | _ => none

/-- src/packet.rs:165-167 `PacketType::to_bytes` (`self as u16`). -/
def PacketType.repr : PacketType → UInt16
  | .read => 1 | .write => 2 | .data => 3 | .ack => 4 | .error => 5 | .optionalAck => 6

/-- src/packet.rs:210-232 `Extension`. -/
inductive Extension
  | blockSize | timeout | transferSize | encryptionLevel | windowSize
  | sessionPublicKey | authPublicKey | signature
deriving DecidableEq, Repr

/-- Iteration order of the `BTreeMap` (derived `Ord`, src/packet.rs:208-232). -/
def Extension.all : List Extension :=
  [.blockSize, .timeout, .transferSize, .encryptionLevel, .windowSize,
   .sessionPublicKey, .authPublicKey, .signature]

/-- src/packet.rs:234-245 `Extension::as_str`. -/
def Extension.name : Extension → Bytes
  | .blockSize => ascii "blksize"
  | .timeout => ascii "timeout"
  | .transferSize => ascii "tsize"
  | .encryptionLevel => ascii "enclevel"
  | .windowSize => ascii "windowsize"
  | .sessionPublicKey => ascii "spubk"
  | .authPublicKey => ascii "apubk"
  | .signature => ascii "sig"

/-- src/packet.rs:252-268 `FromStr for Extension` (exact lower or upper case). -/
def Extension.ofName (s : Bytes) : Option Extension :=
  if s = ascii "blksize" ∨ s = ascii "BLKSIZE" then some .blockSize
  else if s = ascii "timeout" ∨ s = ascii "TIMEOUT" then some .timeout
  else if s = ascii "tsize" ∨ s = ascii "TSIZE" then some .transferSize
  else if s = ascii "spubk" ∨ s = ascii "SPUBK" then some .sessionPublicKey
  else if s = ascii "apubk" ∨ s = ascii "APUBK" then some .authPublicKey
  else if s = ascii "sig" ∨ s = ascii "SIG" then some .signature
  else if s = ascii "enclevel" ∨ s = ascii "ENCLEVEL" then some .encryptionLevel
  else if s = ascii "windowsize" ∨ s = ascii "WINDOWSIZE" then some .windowSize
  else none

/-- src/packet.rs:18-21 `PacketExtensions` (finite map with eight possible keys). -/
abbrev Exts := Extension → Option Bytes

namespace Exts
/-- `PacketExtensions::new()`. -/
def empty : Exts := fun _ => none
/-- `extensions.insert(k, v)`: a later value replaces an earlier one. -/
def insert (e : Exts) (k : Extension) (v : Bytes) : Exts := fun x => if x = k then some v else e x
/-- src/packet.rs:297-299 insert the pair if the option name is known, ignore it otherwise. -/
def insertNamed (e : Exts) (name value : Bytes) : Exts :=
  match Extension.ofName name with
  | some k => e.insert k value
  | none => e
/-- `extensions.remove(&k)`. -/
def remove (e : Exts) (k : Extension) : Exts := fun x => if x = k then none else e x
/-- `extensions.len()`. -/
def size (e : Exts) : Nat := (Extension.all.filter fun k => (e k).isSome).length
/-- `extensions.is_empty()`. -/
def isEmpty (e : Exts) : Bool := e.size == 0
/-- `into_iter()` in key order. -/
def entries (e : Exts) : List (Extension × Bytes) :=
  Extension.all.filterMap fun k => (e k).map fun v => (k, v)
end Exts

/-- src/packet.rs:340-345 `RequestPacket` (the only mode is octet, so it is not stored). -/
structure Request where
  fileName : Bytes
  exts : Exts

/-- src/packet.rs:452-463 `ErrorCode`. -/
inductive ErrorCode
  | undefined | fileNotFound | accessViolation | diskFull | illegalOperation
  | unknownId | fileAlreadyExists | notSuchUser
deriving DecidableEq, Repr

/-- `code as u16`, src/packet.rs:452-463. -/
def ErrorCode.repr : ErrorCode → UInt16
  | .undefined => 0 | .fileNotFound => 1 | .accessViolation => 2 | .diskFull => 3
  | .illegalOperation => 4 | .unknownId => 5 | .fileAlreadyExists => 6 | .notSuchUser => 7

/-- src/packet.rs:485-498 `ErrorCode::from_repr`. -/
def ErrorCode.ofRepr (n : Nat) : Option ErrorCode :=
  match n with
  | 0 => some .undefined
  | 1 => some .fileNotFound
  | 2 => some .accessViolation
  | 3 => some .diskFull
  | 4 => some .illegalOperation
  | 5 => some .unknownId
  | 6 => some .fileAlreadyExists
  | 7 => some .notSuchUser
  | _ => none

/-- src/packet.rs:31-39 `Packet`. -/
inductive Packet
  | read (r : Request)
  | write (r : Request)
  | data (block : UInt16) (payload : Bytes)
  | ack (block : UInt16)
  | error (code : ErrorCode) (message : Bytes)
  | optionalAck (exts : Exts)

/-- src/error.rs:114-121, the decoder's errors. -/
inductive PacketError | invalid | invalidString | invalidMode
deriving DecidableEq, Repr

/-- src/packet.rs:40-52 `packet_type`. -/
def Packet.type : Packet → PacketType
  | .read _ => .read | .write _ => .write | .data .. => .data | .ack _ => .ack
  | .error .. => .error | .optionalAck _ => .optionalAck

/-! ### Encoder -/

/-- src/packet.rs:308-325 `OptionalAck::to_bytes`. -/
def Exts.toBytes (e : Exts) : Bytes :=
  e.entries.foldl (fun v kv => v ++ (kv.1.name ++ [0] ++ kv.2 ++ [0])) []

/-- src/packet.rs:387-400 `RequestPacket::to_bytes`. -/
def Request.toBytes (r : Request) : Bytes :=
  r.fileName ++ [0] ++ ascii "octet" ++ [0] ++ r.exts.toBytes

/-- src/packet.rs:97-136 `Packet::to_bytes` (bodies: 425-431, 450-452, 527-534). -/
def Packet.toBytes : Packet → Bytes
  | .read r => be16 PacketType.read.repr ++ r.toBytes
  | .write r => be16 PacketType.write.repr ++ r.toBytes
  | .data b d => be16 PacketType.data.repr ++ (be16 b ++ d)
  | .ack b => be16 PacketType.ack.repr ++ be16 b
  | .error c m => be16 PacketType.error.repr ++ (be16 c.repr ++ m ++ [0])
  | .optionalAck e => be16 PacketType.optionalAck.repr ++ e.toBytes

/-- `p.to_buffer(buffer.get_mut(size..)?).map(|s| size + s)`: run an encoder on the tail of the
buffer (src/packet.rs:72-95, 386-390). -/
def onTail (buf : Bytes) (size : Nat) (f : Bytes → Option (Bytes × Nat)) : Option (Bytes × Nat) :=
  if size ≤ buf.length then
    match f (buf.drop size) with
    | none => none
    | some (t, s) => some (buf.take size ++ t, size + s)
  else none

/-- src/packet.rs:325-334 `OptionalAck::to_buffer`: the loop over the entries. -/
def extsToBufferLoop : List (Extension × Bytes) → Bytes → Nat → Option (Bytes × Nat)
  | [], buf, size => some (buf, size)
  | (k, v) :: rest, buf, size => do
    let (buf, size) ← writeBytes buf k.name size
    let (buf, size) ← writeBytes buf [0] size
    let (buf, size) ← writeBytes buf v size
    let (buf, size) ← writeBytes buf [0] size
    extsToBufferLoop rest buf size

/-- src/packet.rs:325-334 `OptionalAck::to_buffer`. -/
def Exts.toBuffer (e : Exts) (buf : Bytes) : Option (Bytes × Nat) := extsToBufferLoop e.entries buf 0

/-- src/packet.rs:373-385 `RequestPacket::to_buffer`. -/
def Request.toBuffer (r : Request) (buf : Bytes) : Option (Bytes × Nat) := do
  let (buf, size) ← writeBytes buf r.fileName 0
  let (buf, size) ← writeBytes buf [0] size
  let (buf, size) ← writeBytes buf (ascii "octet") size
  let (buf, size) ← writeBytes buf [0] size
  onTail buf size r.exts.toBuffer

/-- src/packet.rs:428-432 `DataPacket::to_buffer`. -/
def dataToBuffer (b : UInt16) (d : Bytes) (buf : Bytes) : Option (Bytes × Nat) := do
  let (buf, size) ← writeBytes buf (be16 b) 0
  writeBytes buf d size

/-- src/packet.rs:536-541 `ErrorPacket::to_buffer`. -/
def errorToBuffer (c : ErrorCode) (m : Bytes) (buf : Bytes) : Option (Bytes × Nat) := do
  let (buf, size) ← writeBytes buf (be16 c.repr) 0
  let (buf, size) ← writeBytes buf m size
  writeBytes buf [0] size

/-- src/packet.rs:70-95 `Packet::to_buffer`: the new buffer content and the packet size.
(On failure the real buffer may be partly overwritten; only the failure is modelled.) -/
def Packet.toBuffer (p : Packet) (buf : Bytes) : Option (Bytes × Nat) := do
  let (buf, size) ← writeBytes buf (be16 p.type.repr) 0
  onTail buf size <| match p with
    | .read r => r.toBuffer
    | .write r => r.toBuffer
    | .data b d => dataToBuffer b d
    | .ack b => fun buf => writeBytes buf (be16 b) 0
    | .error c m => errorToBuffer c m
    | .optionalAck e => e.toBuffer

/-- src/packet.rs:547-550 `prepend_data_header`. -/
def prependDataHeader (block : UInt16) (buf : Bytes) : Option (Bytes × Nat) := do
  let (buf, size) ← writeBytes buf (be16 PacketType.data.repr) 0
  writeBytes buf (be16 block) size

/-! ### Decoder -/

/-- src/packet.rs:278-306 the loop of `OptionalAck::from_bytes`.  The first argument bounds the
number of iterations; it is started with more fuel than bytes and every iteration consumes at
least two bytes, so it never runs out (`extLoop_fuel` in PacketProps). -/
def extLoop : Nat → Bytes → Exts → Except PacketError Exts
  | 0, _, _ => .error .invalid
  | fuel + 1, rest, e =>
    if e.size < 8 then
      match splitNul rest with
      | none => .error .invalid
      | some (name, next) =>
        if utf8Valid name then
          match splitNul next with
          | none => .error .invalid
          | some (value, next) =>
            if utf8Valid value then
              let e := e.insertNamed name value
              if next.isEmpty then .ok e else extLoop fuel next e
            else .error .invalidString
        else .error .invalidString
    else .ok e

/-- src/packet.rs:278-306 `OptionalAck::from_bytes`. -/
def Exts.fromBytes (b : Bytes) : Except PacketError Exts := extLoop (b.length + 1) b Exts.empty

/-- src/packet.rs:347-375 `RequestPacket::from_bytes`. -/
def Request.fromBytes (b : Bytes) : Except PacketError Request :=
  match splitNul b with
  | none => .error .invalid
  | some (name, rest) =>
    if utf8Valid name then
      match splitNul rest with
      | none => .error .invalid
      | some (mode, rest) =>
        if utf8Valid mode then
          if mode = ascii "octet" then
            if rest.isEmpty then .ok ⟨name, Exts.empty⟩
            else match Exts.fromBytes rest with
              | .ok e => .ok ⟨name, e⟩
              | .error x => .error x
          else .error .invalidMode
        else .error .invalidString
    else .error .invalidString

/-- src/packet.rs:514-528 `ErrorPacket::from_bytes`. -/
def errorFromBytes (b : Bytes) : Except PacketError Packet :=
  match readU16 b with
  | none => .error .invalid
  | some c =>
    match ErrorCode.ofRepr c.toNat with
    | none => .error .invalid
    | some code =>
      match splitNul (b.drop 2) with
      | none => .error .invalid
      | some (m, _) => if utf8Valid m then .ok (.error code m) else .error .invalidString

/-- src/packet.rs:54-68 `Packet::from_bytes` (data: 417-424, ack: 445-449). -/
def Packet.fromBytes (b : Bytes) : Except PacketError Packet :=
  match readU16 b with
  | none => .error .invalid
  | some op =>
    match PacketType.ofRepr op.toNat with
    | none => .error .invalid
    | some .read => (Request.fromBytes (b.drop 2)).map .read
    | some .write => (Request.fromBytes (b.drop 2)).map .write
    | some .data =>
      match readU16 (b.drop 2) with
      | none => .error .invalid
      | some blk => .ok (.data blk ((b.drop 2).drop 2))
    | some .ack =>
      match readU16 (b.drop 2) with
      | none => .error .invalid
      | some blk => .ok (.ack blk)
    | some .error => errorFromBytes (b.drop 2)
    | some .optionalAck => (Exts.fromBytes (b.drop 2)).map .optionalAck

end Tftp

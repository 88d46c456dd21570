import Verif.Packet
/-
Independent description of TFTP datagrams (RFC 1350, RFC 2347), used to state C01-C04, C42.
It is written as a relation "these bytes are a datagram denoting that packet" and does not use the
encoder/decoder functions of the model.
-/
namespace Tftp.Spec
open Tftp

/-- A wire string: no NUL inside and UTF-8. -/
def Text (s : Bytes) : Prop := (0 : UInt8) ∉ s ∧ utf8Valid s = true

/-- `name NUL value NUL` for every option pair. -/
def pairsWire : List (Bytes × Bytes) → Bytes
  | [] => []
  | (n, v) :: r => n ++ 0 :: (v ++ 0 :: pairsWire r)

/-- The option set denoted by a list of option pairs: for each known name (lower or upper case)
the value of its last occurrence. -/
def denotes (ps : List (Bytes × Bytes)) (k : Extension) : Option Bytes :=
  match ps with
  | [] => none
  | (n, v) :: r =>
    match denotes r k with
    | some w => some w
    | none => if Extension.ofName n = some k then some v else none

/-- All option strings are wire strings. -/
def PairsOk (ps : List (Bytes × Bytes)) : Prop := ∀ p ∈ ps, Text p.1 ∧ Text p.2

/-- All eight known options are present. -/
def Full (ps : List (Bytes × Bytes)) : Prop := ∀ k, (denotes ps k).isSome

/-- `b` is an option list denoting `e`: a non-empty sequence of pairs.  Bytes after the pairs are
tolerated (and ignored) only once all eight known options have been seen. -/
def OptionList (b : Bytes) (e : Exts) : Prop :=
  ∃ ps junk, ps ≠ [] ∧ PairsOk ps ∧ b = pairsWire ps ++ junk ∧ e = denotes ps ∧
    ¬ Full ps.dropLast ∧ (junk = [] ∨ Full ps)

/-- `b` is the body of a read/write request: name NUL "octet" NUL [options]. -/
def RequestBody (b : Bytes) (r : Request) : Prop :=
  ∃ opts, Text r.fileName ∧ b = r.fileName ++ 0 :: (ascii "octet" ++ 0 :: opts) ∧
    ((opts = [] ∧ r.exts = fun _ => none) ∨ OptionList opts r.exts)

/-- The wire number of an error code (RFC 1350 appendix). -/
def errorNumber : ErrorCode → UInt8
  | .undefined => 0 | .fileNotFound => 1 | .accessViolation => 2 | .diskFull => 3
  | .illegalOperation => 4 | .unknownId => 5 | .fileAlreadyExists => 6 | .notSuchUser => 7

/-- High and low byte of a 16 bit number. -/
def hi (n : UInt16) : UInt8 := UInt8.ofNat (n.toNat / 256)
def lo (n : UInt16) : UInt8 := UInt8.ofNat (n.toNat % 256)

/-- `b` is a datagram denoting the packet `p`. -/
inductive Wire : Bytes → Packet → Prop
  | read {b r} : RequestBody b r → Wire (0 :: 1 :: b) (.read r)
  | write {b r} : RequestBody b r → Wire (0 :: 2 :: b) (.write r)
  | data {blk payload} : Wire (0 :: 3 :: hi blk :: lo blk :: payload) (.data blk payload)
  | ack {blk junk} : Wire (0 :: 4 :: hi blk :: lo blk :: junk) (.ack blk)
  | error {code msg junk} : Text msg → Wire (0 :: 5 :: 0 :: errorNumber code :: (msg ++ 0 :: junk)) (.error code msg)
  | optionalAck {b e} : OptionList b e → Wire (0 :: 6 :: b) (.optionalAck e)

/-- Packets the library can send: all strings are wire strings, an option ack has an option. -/
def Sendable : Packet → Prop
  | .read r | .write r => Text r.fileName ∧ ∀ k v, r.exts k = some v → Text v
  | .data _ _ => True
  | .ack _ => True
  | .error _ m => Text m
  | .optionalAck e => (∃ k, (e k).isSome) ∧ ∀ k v, e k = some v → Text v

end Tftp.Spec

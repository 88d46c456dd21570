import Verif.Life
import Verif.NegotiateInv
import Verif.WindowSpec
/-
C80, C81: other people's clients. A peer which follows RFC 1350 (with the block size of RFC 2348 and the window of RFC 7440, if the server
has confirmed them) and knows nothing else of this code, as a small machine of its own; the connection of the server it talks to; and a network
between them which loses, duplicates, delays and reorders datagrams. RfcDown.lean: the peer downloads, RfcUp.lean: it uploads.

The peers are not deterministic, so that each of them stands for many programs: the receiving one may acknowledge what it has whenever it
likes, the sending one may send any block of its window whenever it likes.
-/
namespace Tftp.Rfc
open Tftp

/-! ### Packets -/

/-- A block number: two octets, high one first; block numbers start again at 0 after 65535. -/
def number (k : Nat) : Bytes := [UInt8.ofNat (k / 256), UInt8.ofNat k]

/-- RFC 1350, figure 5-2: block `k` with the data `x`. -/
def dataPacket (k : Nat) (x : Bytes) : Bytes := [0, 3] ++ number k ++ x

/-- RFC 1350, figure 5-3. -/
def ackPacket (k : Nat) : Bytes := [0, 4] ++ number k

/-- The options the server has confirmed: none, unless it answered with an OACK (RFC 2347). -/
def granted (out : List Bytes) : Exts := match out with
  | [d] => (match Packet.fromBytes d with
    | .ok (.optionalAck e) => e
    | _ => Exts.empty)
  | _ => Exts.empty

/-- RFC 2348: the confirmed block size, otherwise 512. -/
def blockSize (out : List Bytes) : Nat := (Spec.requested (granted out) .blockSize 65535).getD 512

/-- RFC 7440: the confirmed window size, otherwise 1. -/
def windowSize (out : List Bytes) : Nat := (Spec.requested (granted out) .windowSize 65535).getD 1

/-! ### The network -/

/-- A datagram, with the number of blocks the peer had received (or got confirmed) when it was sent. -/
structure Mail where
  bytes : Bytes
  stamp : Nat

/-- The age limit of the network, if there is one: while a datagram is under way, the transfer advances by at most so many blocks. -/
def inTime (age : Option Nat) (stamp now : Nat) : Bool := match age with
  | none => true
  | some l => decide (now ≤ stamp + l)

/-- What the two octets of a block number demand: a short file, or a window and an age limit which are small. -/
def Distinct (age : Option Nat) (window blocks : Nat) : Prop := match age with
  | none => blocks ≤ 55535
  | some l => l + window ≤ 10000

/-! ### A peer which downloads -/

/-- What it has received. -/
structure Receiver where
  blocks : Nat
  out : Bytes
  done : Bool

/-- It takes a data packet if it is the next block; a packet with less than a whole block is the last one. -/
def Receiver.hear (bs : Nat) (r : Receiver) (d : Bytes) : Receiver :=
  if r.done = false ∧ d.take 4 = [0, 3] ++ number (r.blocks + 1) then ⟨r.blocks + 1, r.out ++ d.drop 4, decide (d.length < bs + 4)⟩
  else r

/-- The connection at the server, the peer, and all datagrams ever sent in both directions, newest first. -/
structure Fetch where
  conn : Option Conn
  peer : Receiver
  toPeer : List Mail
  toServer : List Mail

/-- What can happen. -/
inductive FetchEv
  /-- a sending turn of the server -/
  | tick (t : Nat) (io : SendIo)
  /-- the server's time-out check -/
  | check (t : Nat) (io : RecvIo)
  /-- the server's socket fails -/
  | drop
  /-- datagram `i` reaches the server -/
  | arrive (i : Nat) (t : Nat) (io : RecvIo)
  /-- datagram `i` reaches the peer -/
  | hear (i : Nat)
  /-- the peer acknowledges the blocks it has -/
  | ack
  /-- the peer sends an error packet -/
  | quit (text : Bytes)

/-- Something happens to the server's connection. -/
def Fetch.server {S} (v : Srv S) (stops : Bool) (X : Fetch) (e : LifeEv) : Fetch :=
  { X with
    conn := (v.lifeStep stops X.conn e).1
    toPeer := (v.lifeStep stops X.conn e).2.map (⟨·, X.peer.blocks⟩) ++ X.toPeer }

def Fetch.step {S} (v : Srv S) (stops : Bool) (bs : Nat) (age : Option Nat) (X : Fetch) : FetchEv → Fetch
  | .tick t io => X.server v stops (.tick t io)
  | .check t io => X.server v stops (.check t io)
  | .drop => X.server v stops .drop
  | .arrive i t io => match X.toServer[i]? with
    | some m => if inTime age m.stamp X.peer.blocks then X.server v stops (.recv t m.bytes io) else X
    | none => X
  | .hear i => match X.toPeer[i]? with
    | some m => if inTime age m.stamp X.peer.blocks then { X with peer := X.peer.hear bs m.bytes } else X
    | none => X
  | .ack => { X with toServer := ⟨ackPacket X.peer.blocks, X.peer.blocks⟩ :: X.toServer }
  | .quit text => { X with toServer := ⟨[0, 5] ++ text, X.peer.blocks⟩ :: X.toServer }

/-- The server has accepted a read request with the connection `c` and the answer `out`. -/
def Fetch.init (c : Conn) (out : List Bytes) : Fetch := ⟨some c, ⟨0, [], false⟩, out.map (⟨·, 0⟩), []⟩

/-- Everything which is under way is lost. -/
def Fetch.lost (X : Fetch) : Fetch := { X with toPeer := [], toServer := [] }

def Fetch.run {S} (v : Srv S) (stops : Bool) (bs : Nat) (age : Option Nat) (X : Fetch) (es : List FetchEv) : Fetch :=
  es.foldl (Fetch.step v stops bs age) X

/-! ### A peer which uploads -/

/-- It advances when the server confirms a block of its window. -/
def heard (file : Bytes) (bs W confirmed : Nat) (d : Bytes) : Nat :=
  match (List.range W).find? fun j => decide (confirmed + j + 1 ≤ Spec.nblocks file bs ∧ d = ackPacket (confirmed + j + 1)) with
  | some j => confirmed + j + 1
  | none => confirmed

/-- The connection at the server, how many blocks the peer has got confirmed, and all datagrams. `stored`: what the server's file
contains. -/
structure Store where
  conn : Option Conn
  confirmed : Nat
  toPeer : List Mail
  toServer : List Mail
  stored : Bytes

inductive StoreEv
  | tick (t : Nat) (io : SendIo)
  | check (t : Nat) (io : RecvIo)
  | drop
  | arrive (i : Nat) (t : Nat) (io : RecvIo)
  | hear (i : Nat)
  /-- the peer sends a block of its window: the `j`-th after those which are confirmed -/
  | send (j : Nat)
  | quit (text : Bytes)

/-- The file takes what it is given, or fails. -/
def StoreEv.sound : StoreEv → Prop
  | .arrive _ _ io => io.file = .all ∨ io.file = .err
  | _ => True

/-- The file of a connection. -/
def stored (old : Bytes) : Option Conn → Bytes
  | some c => (match c.side with
    | .writer s => s.w.out
    | .reader _ => old)
  | none => old

def Store.server {S} (v : Srv S) (stops : Bool) (X : Store) (e : LifeEv) : Store :=
  { X with
    conn := (v.lifeStep stops X.conn e).1
    toPeer := (v.lifeStep stops X.conn e).2.map (⟨·, X.confirmed⟩) ++ X.toPeer
    stored := Rfc.stored X.stored (v.lifeStep stops X.conn e).1 }

def Store.step {S} (v : Srv S) (stops : Bool) (file : Bytes) (bs W : Nat) (age : Option Nat) (X : Store) : StoreEv → Store
  | .tick t io => X.server v stops (.tick t io)
  | .check t io => X.server v stops (.check t io)
  | .drop => X.server v stops .drop
  | .arrive i t io => match X.toServer[i]? with
    | some m => if inTime age m.stamp X.confirmed then X.server v stops (.recv t m.bytes io) else X
    | none => X
  | .hear i => match X.toPeer[i]? with
    | some m => if inTime age m.stamp X.confirmed then { X with confirmed := heard file bs W X.confirmed m.bytes } else X
    | none => X
  | .send j =>
    if j < W ∧ X.confirmed + j + 1 ≤ Spec.nblocks file bs then
      { X with toServer := ⟨dataPacket (X.confirmed + j + 1) (Spec.block file bs (X.confirmed + j + 1)), X.confirmed⟩ :: X.toServer }
    else X
  | .quit text => { X with toServer := ⟨[0, 5] ++ text, X.confirmed⟩ :: X.toServer }

/-- The server has accepted a write request. -/
def Store.init (c : Conn) (out : List Bytes) : Store := ⟨some c, 0, out.map (⟨·, 0⟩), [], []⟩

/-- Everything which is under way is lost. -/
def Store.lost (X : Store) : Store := { X with toPeer := [], toServer := [] }

def Store.run {S} (v : Srv S) (stops : Bool) (file : Bytes) (bs W : Nat) (age : Option Nat) (X : Store) (es : List StoreEv) : Store :=
  es.foldl (Store.step v stops file bs W age) X

end Tftp.Rfc

import Verif.Rfc
import Verif.Client
/-
C83, C84: other people's servers. The client of this code, from its first request, against a server which follows the RFCs and knows nothing
else of this code, with a network between them which loses, duplicates, delays and reorders datagrams. RfcSend.lean: the client uploads,
RfcTake.lean: it downloads.

Of the server only the transfer itself is described: it has decided to accept the request, with the answer `answer`: an acknowledgement of
block 0 or an OACK. It repeats the answer as often as it likes.
-/
namespace Tftp.Rfc
open Tftp

/-- What a server may answer to a write request (RFC 1350, RFC 2347). -/
def WriteAnswer (answer : Bytes) : Prop := answer = ackPacket 0 ∨ ∃ e, Packet.fromBytes answer = .ok (.optionalAck e)

/-- What `recv_from` gives the client: a datagram of the server, or whatever `i` says if this is not a datagram. -/
def received (ep : Ep) (m : Option Bytes) (i : CliIn) : CliIn :=
  { i with recv := match m with
    | some b => .dgram ep b
    | none => (match i.recv with
      | .error => .error
      | _ => .wouldBlock) }

/-- Datagram `k` of those under way, if there is one and it is not too old. -/
def deliver (age : Option Nat) (ms : List Mail) (now : Nat) (k : Option Nat) : Option Bytes :=
  match k.bind (ms[·]?) with
  | some m => if inTime age m.stamp now then some m.bytes else none
  | none => none

/-! ### A server which stores -/

/-- The client, what the server has stored, and all datagrams ever sent in both directions, newest first. -/
structure Send where
  cli : CliSt
  peer : Receiver
  toPeer : List Mail
  toClient : List Mail

inductive SendEv
  /-- one iteration of the client, which receives datagram `k` -/
  | client (i : CliIn) (k : Option Nat)
  /-- datagram `k` reaches the server -/
  | hear (k : Nat)
  /-- the server acknowledges the blocks it has; if it has none, it repeats its answer -/
  | ack
  /-- the server sends an error packet -/
  | quit (text : Bytes)

/-- `ep` is the address from which the server answers. -/
def Send.step {S} (v : Cli S) (j : Job) (ep : Ep) (answer : Bytes) (age : Option Nat) (X : Send) : SendEv → Send
  | .client i k =>
    let q := v.step j X.cli (received ep (deliver age X.toClient X.peer.blocks k) i)
    { X with cli := q.1, toPeer := (q.2.filter (·.1 = ep)).map (fun d => ⟨d.2, X.peer.blocks⟩) ++ X.toPeer }
  | .hear k => match deliver age X.toPeer X.peer.blocks (some k) with
    | some b => { X with peer := X.peer.hear (blockSize [answer]) b }
    | none => X
  | .ack => { X with toClient := ⟨if X.peer.blocks = 0 then answer else ackPacket X.peer.blocks, X.peer.blocks⟩ :: X.toClient }
  | .quit text => { X with toClient := ⟨[0, 5] ++ text, X.peer.blocks⟩ :: X.toClient }

/-- The client starts at time `t`. -/
def Send.init {S} (v : Cli S) (j : Job) (t : Nat) : Send := ⟨.query (v.start j t), ⟨0, [], false⟩, [], []⟩

def Send.run {S} (v : Cli S) (j : Job) (ep : Ep) (answer : Bytes) (age : Option Nat) (X : Send) (es : List SendEv) : Send :=
  es.foldl (Send.step v j ep answer age) X

/-- Everything which is under way is lost. -/
def Send.lost (X : Send) : Send := { X with toPeer := [], toClient := [] }

/-! ### A server which provides -/

/-- The client; whether the server knows that its OACK was received, and how many blocks it has got confirmed; all datagrams. -/
structure Take where
  cli : CliSt
  started : Bool
  confirmed : Nat
  toPeer : List Mail
  toClient : List Mail

inductive TakeEv
  | client (i : CliIn) (k : Option Nat)
  | hear (k : Nat)
  /-- the server sends its OACK, again -/
  | oack
  /-- once the OACK is acknowledged, the server sends a block of its window: the `n`-th after those which are confirmed -/
  | send (n : Nat)
  | quit (text : Bytes)

def Take.step {S} (v : Cli S) (j : Job) (ep : Ep) (answer file : Bytes) (age : Option Nat) (X : Take) : TakeEv → Take
  | .client i k =>
    let q := v.step j X.cli (received ep (deliver age X.toClient X.confirmed k) i)
    { X with cli := q.1, toPeer := (q.2.filter (·.1 = ep)).map (fun d => ⟨d.2, X.confirmed⟩) ++ X.toPeer }
  | .hear k => match deliver age X.toPeer X.confirmed (some k) with
    | some b =>
      if X.started then { X with confirmed := heard file (blockSize [answer]) (windowSize [answer]) X.confirmed b }
      else { X with started := decide (b = ackPacket 0) }
    | none => X
  | .oack => if X.started then X else { X with toClient := ⟨answer, X.confirmed⟩ :: X.toClient }
  | .send n =>
    if X.started = true ∧ n < windowSize [answer] ∧ X.confirmed + n + 1 ≤ Spec.nblocks file (blockSize [answer]) then
      { X with toClient := ⟨dataPacket (X.confirmed + n + 1) (Spec.block file (blockSize [answer]) (X.confirmed + n + 1)), X.confirmed⟩ :: X.toClient }
    else X
  | .quit text => { X with toClient := ⟨[0, 5] ++ text, X.confirmed⟩ :: X.toClient }

def Take.init {S} (v : Cli S) (j : Job) (t : Nat) : Take := ⟨.query (v.start j t), false, 0, [], []⟩

def Take.run {S} (v : Cli S) (j : Job) (ep : Ep) (answer file : Bytes) (age : Option Nat) (X : Take) (es : List TakeEv) : Take :=
  es.foldl (Take.step v j ep answer file age) X

/-- Everything which is under way is lost. -/
def Take.lost (X : Take) : Take := { X with toPeer := [], toClient := [] }

/-- The client's file takes what it is given, or fails. -/
def TakeEv.sound : TakeEv → Prop
  | .client i _ => i.file = .all ∨ i.file = .err
  | _ => True

/-- The file of the client so far. -/
def fileOf : CliSt → Bytes
  | .down _ _ _ s _ _ => s.w.out
  | .done _ f => f
  | _ => []

/-- An OACK which a client can accept: only options of its request (RFC 2347), no larger than it asked for and no smaller than this code
permits. -/
def Confirms (exts e : Exts) : Prop :=
  (∀ k, (e k).isSome → (exts k).isSome) ∧
  (∀ t, e .blockSize = some t → ∃ n m, parseUInt 65535 t = some n ∧ 512 ≤ n ∧ Spec.requested exts .blockSize 65535 = some m ∧ n ≤ m) ∧
  (∀ t, e .windowSize = some t → ∃ n m, parseUInt 65535 t = some n ∧ 1 ≤ n ∧ Spec.requested exts .windowSize 65535 = some m ∧ n ≤ m) ∧
  (∀ t, e .timeout = some t → ∃ n, parseUInt 255 t = some n ∧ 1 ≤ n) ∧
  (∀ t, e .transferSize = some t → Spec.requested exts .transferSize (2 ^ 64 - 1) = some 0 ∨
    ∃ n, parseUInt (2 ^ 64 - 1) t = some n ∧ Spec.requested exts .transferSize (2 ^ 64 - 1) = some n)

end Tftp.Rfc

import Verif.ReaderApi
import Verif.Writer
import Verif.Packet
/-
Model of a whole transfer: the sending loop (client `send_file` or server `send_data_block` /
`handle_read`), the receiving loop (client `receive_file` or server `handle_write`) and a network which
may lose, duplicate, delay and reorder every datagram.

Simplifications: clocks are replaced by arbitrary event choices (`retry` = "the retry timeout has
elapsed", `abort*` = "the request timeout has elapsed / the process was stopped"); rate control and
statistics are left out (they never influence which block is sent); texts of error packets are constant.
The pre-check of the packet type (client/sender.rs:291-297, client/receiver.rs:205-211, helpers/read.rs:97-104,
helpers/write.rs:35-47 ) only ignores packets which the following match ignores as well, so it is
merged with it.
-/
namespace Tftp

/-- Datagram protection of an established connection: nothing, or `EncryptedPacket` /
`EncryptedDataPacket` (src/client/encryption_socket.rs:65-134, src/server/connection.rs:70-158).
`enc` gets the fresh nonce. `lim` is the largest packet which has to be encodable. -/
structure Codec (lim : Nat) where
  enc : Nat → Bytes → Option Bytes
  dec : Bytes → Option Bytes
  dec_enc : ∀ n b e, enc n b = some e → dec e = some b
  enc_some : ∀ n b, 4 ≤ b.length → b.length ≤ lim → (enc n b).isSome = true

/-- No encryption. -/
def Codec.plain (lim : Nat) : Codec lim where
  enc := fun _ b => some b
  dec := some
  dec_enc := by intro n b e h; injection h with h; rw [h]
  enc_some := by intros; rfl

/-- Who runs a side of the transfer. -/
inductive Role
  | client
  | serverSingle
  | serverMulti
deriving DecidableEq, Repr

/-- Does a receiving side stop handling datagrams once it has finished or failed? The client returns from the
function; the multi threaded server leaves its loop (src/server/multi_thread.rs:301-303,
src/server/helpers/connection.rs:140-142); the single threaded server keeps passing datagrams to
`handle_read`/`handle_write` until the connection is purged (src/server/single_thread.rs:149-154,
239-255). -/
def Role.stops : Role → Bool
  | .client => true
  | .serverMulti => true
  | .serverSingle => false

/-- The same for a sending side. A connection of the multi threaded server which fails in its sending turn still handles one
datagram before the next check (src/server/multi_thread.rs:257-280); simplification: any number of them. -/
def Role.stopsSending : Role → Bool
  | .client => true
  | .serverMulti => false
  | .serverSingle => false

/-- Parameters of a transfer: `bs` is the payload size (`block_size_with_encryption`), `W` the sender's window
size, `ackW` the receiver's (they differ if the client repeats its request without options: src/client/connection.rs:154-160
keeps its own window size), `cap` the room for a payload in the send buffer, `max` the receiver's maximum file size. -/
structure Cfg where
  bs : Nat
  W : Nat
  ackW : Nat
  cap : Nat
  max : Nat
  sender : Role
  receiver : Role
  codec : Codec (bs + 4)

/-- Sending side. Client: `total_confirmed` (src/client/sender.rs:157); server: `connection.transfer`,
`finished`, `invalid` (src/server/connection.rs:39-59). -/
structure SendSt where
  reader : Reader
  total : Nat
  finished : Bool
  failed : Bool

/-- Result of handing a datagram to the socket. -/
inductive SendRes
  | sent
  | wouldBlock
  | error
deriving DecidableEq, Repr

/-- A datagram on the network. `tag` is a ghost field for stating the network assumption and the
properties: the true block index of a data or ack packet. No function of the model reads it, except the
network's age limit. -/
structure Dgram where
  tag : Option Nat
  bytes : Bytes

/-- Encode and protect a packet. -/
def Cfg.emit (c : Cfg) (nonce : Nat) (tag : Option Nat) (p : Packet) : Option Dgram :=
  (c.codec.enc nonce p.toBytes).map (⟨tag, ·⟩)

/-- The data packet for a block: src/client/sender.rs:226-227, src/server/helpers/read.rs:73-79
(`prepend_data_header` on the buffer whose payload part the reader has filled, then `truncate`;
by `c02_prepend_data_header` this is the encoding of the data packet). -/
def dataPacket (b : Block) : Packet := .data (UInt16.ofNat b.block) b.data

/-- One round of the sending part of the client's loop: src/client/sender.rs:200-246. `fail`: a read
of the file fails, with `WouldBlock` if `wb`. -/
def clientSendTick (c : Cfg) (s : SendSt) (retry fail wb : Bool) (net : SendRes) (nonce : Nat) :
    SendSt × Option Dgram :=
  let (r, o) := s.reader.next retry fail c.cap
  let s := { s with reader := r }
  match o with
  | .none => (s, none)
  | .ioErr => if wb then (s, none) else ({ s with failed := true }, none)
  | .badBuffer => ({ s with failed := true }, none)
  | .block b =>
    match c.emit nonce (some b.index) (dataPacket b), net with
    | some d, .sent => (s, some d)
    | some _, .wouldBlock => (s, none)
    | _, _ => ({ s with failed := true }, none)

/-- src/server/helpers/read.rs:25-85 `send_data_block`. -/
def serverSendTick (c : Cfg) (s : SendSt) (retry fail : Bool) (net : SendRes) (nonce : Nat) :
    SendSt × Option Dgram :=
  let (r, o) := s.reader.next retry fail c.cap
  let s := { s with reader := r }
  let send (p : Option Dgram) := if net = .sent then p else none
  match o with
  | .none => (s, none)
  | .ioErr => ({ s with failed := true }, send (c.emit nonce none (.error .accessViolation [])))
  | .badBuffer => ({ s with failed := true }, send (c.emit nonce none (.error .undefined [])))
  | .block b => (s, send (c.emit nonce (some b.index) (dataPacket b)))

/-- The sending side's turn; the server skips finished and failed connections
(src/server/single_thread.rs:425-431, src/server/multi_thread.rs:258-261). -/
def sendTick (c : Cfg) (s : SendSt) (retry fail wb : Bool) (net : SendRes) (nonce : Nat) :
    SendSt × Option Dgram :=
  if s.finished || s.failed then (s, none)
  else match c.sender with
    | .client => clientSendTick c s retry fail wb net nonce
    | _ => serverSendTick c s retry fail net nonce

/-- Receiving part of the client's sending loop: src/client/sender.rs:263-338 for a datagram from the
server's address. A decryption failure is an I/O error (src/client/encryption_socket.rs:73-88). -/
def clientSendRecv (c : Cfg) (s : SendSt) (dg : Bytes) : SendSt :=
  match c.codec.dec dg with
  | none => { s with failed := true }
  | some b =>
    match Packet.fromBytes b with
    | .ok (.ack blk) =>
      let (r, n) := s.reader.free blk.toNat
      match n with
      | none => { s with reader := r, failed := true }
      | some n => { s with reader := r, total := s.total + n, finished := r.isFinished }
    | .ok (.error _ _) => { s with failed := true }
    | _ => s

/-- src/server/helpers/read.rs:87-145 `handle_read` (timers are in the model of C38/C39). -/
def serverSendRecv (c : Cfg) (s : SendSt) (dg : Bytes) : SendSt :=
  match c.codec.dec dg with
  | none => s
  | some b =>
    match Packet.fromBytes b with
    | .ok (.ack blk) =>
      let (r, n) := s.reader.free blk.toNat
      match n with
      | none => { s with reader := r, failed := true }
      | some n => { s with reader := r, total := s.total + n, finished := s.finished || r.isFinished }
    | .ok (.error _ _) => { s with failed := true }
    | _ => s

/-- A datagram arrives at the sending side. -/
def sendRecv (c : Cfg) (s : SendSt) (dg : Bytes) : SendSt :=
  match c.sender with
  | .client => clientSendRecv c s dg
  | _ => serverSendRecv c s dg

/-- Receiving side. Client: `last_block_ack`, `total` (src/client/receiver.rs:123-124); server:
`last_acknowledged`, `transfer`, `finished`, `invalid` (src/server/connection.rs:39-59). -/
structure RecvSt where
  w : Writer
  lastAck : Nat
  total : Nat
  finished : Bool
  failed : Bool

/-- src/client/receiver.rs:262-285 and src/server/helpers/write.rs:129-162 `write_block`:
(bytes written, index of the newest stored block, number to acknowledge); `none`: storage error. -/
def wrapWrite (w : Writer) (block : Nat) (data : Bytes) (io : WriteIo) :
    Writer × Option (Option Nat × Nat × Nat) :=
  let (w, r) := w.writeBlock block data io
  match r with
  | .ok size i => (w, some (some size, i, block))
  | .already b i => (w, some (none, i, b))
  | .expected b i => (w, some (none, i, b))
  | .ioErr => (w, none)

/-- Is an acknowledgement due: src/client/receiver.rs:232-235, src/server/helpers/write.rs:95-98. -/
def ackDue (c : Cfg) (lastAck index : Nat) (written : Option Nat) : Bool :=
  decide (c.ackW ≤ 1) || decide (lastAck + c.ackW = index) || decide (written.getD 0 < c.bs)

/-- src/client/receiver.rs:203-258: one datagram from the server's address in the client's receiving
loop. `sendOk`: the socket takes the answer. -/
def clientRecv (c : Cfg) (s : RecvSt) (dg : Bytes) (io : WriteIo) (sendOk : Bool) (nonce : Nat) :
    RecvSt × Option Dgram :=
  match c.codec.dec dg with
  | none => ({ s with failed := true }, none)
  | some b =>
    match Packet.fromBytes b with
    | .ok (.data blk data) =>
      let (w, r) := wrapWrite s.w blk.toNat data io
      let s := { s with w := w }
      match r with
      | none => ({ s with failed := true }, none)
      | some (written, index, block) =>
        if (match written with | some n => decide (s.total + n > c.max) | none => false) then
          -- handle_file_size: src/client/receiver.rs:287-304
          ({ s with failed := true },
            if sendOk then c.emit nonce none (.error .diskFull []) else none)
        else if ackDue c s.lastAck index written then
          match c.emit nonce (some index) (.ack (UInt16.ofNat block)), sendOk with
          | some d, true =>
            let s := { s with lastAck := index }
            match written with
            | some n => ({ s with total := s.total + n, finished := decide (n < c.bs) }, some d)
            | none => (s, some d)
          | _, _ => ({ s with failed := true }, none)
        else
          match written with
          | some n => ({ s with total := s.total + n, finished := decide (n < c.bs) }, none)
          | none => (s, none)
    | .ok (.error _ _) => ({ s with failed := true }, none)
    | _ => (s, none)

/-- src/server/helpers/write.rs:23-127 `handle_write`. -/
def serverRecv (c : Cfg) (s : RecvSt) (dg : Bytes) (io : WriteIo) (sendOk : Bool) (nonce : Nat) :
    RecvSt × Option Dgram :=
  match c.codec.dec dg with
  | none => (s, none)
  | some b =>
    match Packet.fromBytes b with
    | .ok (.data blk data) =>
      let (w, r) := wrapWrite s.w blk.toNat data io
      let s := { s with w := w }
      match r with
      | none =>
        ({ s with failed := true },
          if sendOk then c.emit nonce none (.error .accessViolation []) else none)
      | some (written, index, block) =>
        if (match written with | some n => decide (s.total + n > c.max) | none => false) then
          ({ s with failed := true },
            if sendOk then c.emit nonce none (.error .diskFull []) else none)
        else
          let ack := if ackDue c s.lastAck index written && sendOk then
            c.emit nonce (some index) (.ack (UInt16.ofNat block)) else none
          let s := if ack.isSome then { s with lastAck := index } else s
          match written with
          | some n =>
            ({ s with total := s.total + n, finished := s.finished || decide (n < c.bs) }, ack)
          | none => (s, ack)
    | .ok (.error _ _) => ({ s with failed := true }, none)
    | _ => (s, none)

/-- A datagram arrives at the receiving side. -/
def recvRecv (c : Cfg) (s : RecvSt) (dg : Bytes) (io : WriteIo) (sendOk : Bool) (nonce : Nat) :
    RecvSt × Option Dgram :=
  match c.receiver with
  | .client => clientRecv c s dg io sendOk nonce
  | _ => serverRecv c s dg io sendOk nonce

/-- Both sides and the network. `data`/`acks`: all datagrams ever sent to the receiver/sender, newest
first. `seen`/`acked` are ghost fields: newest block index delivered to the receiver/sender. -/
structure Sys where
  snd : SendSt
  rcv : RecvSt
  data : List Dgram
  acks : List Dgram
  seen : Nat
  acked : Nat

/-- What can happen. -/
inductive Ev
  /-- the sender's turn to send -/
  | tick (retry fail wb : Bool) (net : SendRes) (nonce : Nat)
  /-- the network delivers datagram number `i` (0 = newest) to the receiver; `ioOk`: the file takes
  the data -/
  | toReceiver (i : Nat) (ioOk sendOk : Bool) (nonce : Nat)
  /-- the network delivers datagram number `i` to the sender -/
  | toSender (i : Nat)
  /-- a side which has not finished gives up (request timeout, killed) -/
  | abortSender
  | abortReceiver
deriving DecidableEq, Repr

/-- The age limit of the network: a datagram more than 10000 blocks behind the newest delivered one
is not delivered any more. Vacuous for files of at most 55535 blocks. -/
def fresh (N newest : Nat) (tag : Option Nat) : Bool :=
  match tag with
  | none => true
  | some t => decide (newest ≤ t + 10000) || decide (N ≤ 55535)

def newest (old : Nat) (tag : Option Nat) : Nat :=
  match tag with
  | none => old
  | some t => max old t

/-- One event; `N` is the number of blocks of the file. -/
def Sys.step (c : Cfg) (N : Nat) (s : Sys) : Ev → Sys
  | .tick retry fail wb net nonce =>
    let (snd, d) := sendTick c s.snd retry fail wb net nonce
    { s with snd := snd, data := d.toList ++ s.data }
  | .toReceiver i ioOk sendOk nonce =>
    match s.data[i]? with
    | none => s
    | some d =>
      if (c.receiver.stops && (s.rcv.finished || s.rcv.failed)) || !fresh N s.seen d.tag then s
      else
        let (rcv, a) := recvRecv c s.rcv d.bytes (if ioOk then .all else .err)
          sendOk nonce
        { s with rcv := rcv, acks := a.toList ++ s.acks, seen := newest s.seen d.tag }
  | .toSender i =>
    match s.acks[i]? with
    | none => s
    | some d =>
      if (c.sender.stopsSending && (s.snd.finished || s.snd.failed)) || !fresh N s.acked d.tag then s
      else { s with snd := sendRecv c s.snd d.bytes, acked := newest s.acked d.tag }
  | .abortSender =>
    if s.snd.finished then s else { s with snd := { s.snd with failed := true } }
  | .abortReceiver =>
    if s.rcv.finished then s else { s with rcv := { s.rcv with failed := true } }

/-- State after the handshake; the network may still hold the handshake's acknowledgement of block 0
in both directions (src/client/sender.rs:140-143, src/client/receiver.rs:167-170,
src/server/helpers/connection.rs:78-92). -/
def Sys.init (c : Cfg) (k : Kind) (file : Bytes) (nonce : Nat) : Sys :=
  let hs := (c.emit nonce (some 0) (.ack 0)).toList
  ⟨⟨Reader.new k file c.bs c.W, 0, false, false⟩, ⟨Writer.new, 0, 0, false, false⟩,
    [], hs, 0, 0⟩

def Sys.run (c : Cfg) (N : Nat) (s : Sys) (evs : List Ev) : Sys := evs.foldl (Sys.step c N) s

end Tftp
